import Verif.FsmGraph
import Verif.Props.C95
import Verif.Props.DFCode
import Verif.Props.DumpProps
/-
  C99: the printed state machine.
-/
namespace Pyv

/-! ### Specification -/

/-- A transition: the state it starts in (`none`: every state), its condition (`none`: always) and the state it leads to. -/
structure Move where
  src : Option Int
  cond : Option DF
  dst : Int

/-- The transitions of a machine: first those of every state, then those of each state, in the order in which they were recorded. -/
def Fsm.moves (m : Fsm) : List Move :=
  m.any.map (fun p => ⟨none, p.1, p.2⟩) ++ m.fsm.flatMap (fun s => s.2.map (fun p => ⟨some s.1, p.1, p.2⟩))

/-- What a line tells: a source, the text of a condition, a destination. -/
structure Told where
  src : Option Int
  text : Str
  dst : Int
  deriving DecidableEq, Repr

/-- The line `any -- COND--> D` or `S --COND--> D`. -/
def Told.line (t : Told) : Str :=
  (match t.src with | none => "any -- ".toList | some s => intStr s ++ " --".toList) ++ t.text ++ "--> ".toList ++ intStr t.dst

/-- The text of the condition of a transition: its Verilog text, or `None`. -/
def Move.Tells (m : Move) (t : Told) : Prop :=
  t.src = m.src ∧ t.dst = m.dst ∧
    match m.cond with
    | none => t.text = "None".toList
    | some c => c.tocode "dest".toList = .ok t.text

/-! ### Proofs -/

theorem viewCond_ok {c : Option DF} {x : Str} : viewCond c = .ok x ↔
    (match c with | none => x = "None".toList | some c => c.tocode "dest".toList = .ok x) := by
  cases c with
  | none => exact ⟨fun h => (ok_inj.mp h).symm, fun h => by rw [viewCond, h]⟩
  | some c => exact Iff.rfl

theorem viewDst_ok (src : Option Int) (head : Str)
    (hh : head = (match src with | none => "any -- ".toList | some s => intStr s ++ " --".toList)) :
    ∀ (dd : DstDict) (ls : List Str), viewDst head dd = .ok ls ↔
      ∃ ts, List.Forall₂ Move.Tells (dd.map (fun p => ⟨src, p.1, p.2⟩)) ts ∧ ls = ts.map Told.line := by
  intro dd
  induction dd with
  | nil =>
    intro ls
    constructor
    · intro h
      exact ⟨[], .nil, (ok_inj.mp h).symm⟩
    · rintro ⟨ts, h, rfl⟩
      cases h
      rfl
  | cons p dd ih =>
    obtain ⟨c, d⟩ := p
    intro ls
    constructor
    · intro h
      obtain ⟨t, ht, h⟩ := bind_ok.mp h
      obtain ⟨r, hr, h⟩ := bind_ok.mp h
      obtain ⟨ts, hts, rfl⟩ := (ih r).mp hr
      refine ⟨⟨src, t, d⟩ :: ts, .cons ⟨rfl, rfl, viewCond_ok.mp ht⟩ hts, ?_⟩
      rw [← ok_inj.mp h, hh]
      rfl
    · rintro ⟨ts, h, rfl⟩
      cases h with
      | cons h1 h2 =>
        rename_i t ts
        obtain ⟨e1, e2, e3⟩ := h1
        obtain ⟨s, x, d'⟩ := t
        simp only at e1 e2 e3
        subst e1 e2
        refine bind_ok.mpr ⟨x, viewCond_ok.mpr e3, bind_ok.mpr ⟨_, (ih _).mpr ⟨ts, h2, rfl⟩, ?_⟩⟩
        rw [hh]
        rfl

theorem forall2_app {α β : Type} {R : α → β → Prop} : ∀ {a b : List α} {l : List β}, List.Forall₂ R (a ++ b) l →
    ∃ x y, List.Forall₂ R a x ∧ List.Forall₂ R b y ∧ l = x ++ y := by
  intro a
  induction a with
  | nil => intro b l h; exact ⟨[], l, .nil, h, rfl⟩
  | cons p a ih =>
    intro b l h
    cases h with
    | cons h1 h2 =>
      obtain ⟨x, y, hx, hy, rfl⟩ := ih h2
      exact ⟨_ :: x, y, .cons h1 hx, hy, rfl⟩

theorem forall2_join {α β : Type} {R : α → β → Prop} : ∀ {a b : List α} {x y : List β}, List.Forall₂ R a x → List.Forall₂ R b y →
    List.Forall₂ R (a ++ b) (x ++ y) := by
  intro a b x y h h'
  induction h with
  | nil => exact h'
  | cons h _ ih => exact .cons h ih

theorem viewStates_ok : ∀ (ms : List (Int × DstDict)) (ls : List Str), viewStates ms = .ok ls ↔
      ∃ ts, List.Forall₂ Move.Tells (ms.flatMap (fun s => s.2.map (fun p => ⟨some s.1, p.1, p.2⟩))) ts ∧ ls = ts.map Told.line := by
  intro ms
  induction ms with
  | nil =>
    intro ls
    constructor
    · intro h
      exact ⟨[], .nil, (ok_inj.mp h).symm⟩
    · rintro ⟨ts, h, rfl⟩
      cases h
      rfl
  | cons s ms ih =>
    obtain ⟨s, dd⟩ := s
    intro ls
    constructor
    · intro h
      obtain ⟨a, ha, h⟩ := bind_ok.mp h
      obtain ⟨b, hb, h⟩ := bind_ok.mp h
      obtain ⟨x, hx, rfl⟩ := (viewDst_ok (some s) _ rfl dd a).mp ha
      obtain ⟨y, hy, rfl⟩ := (ih b).mp hb
      refine ⟨x ++ y, forall2_join hx hy, ?_⟩
      rw [← ok_inj.mp h, List.map_append]
    · rintro ⟨ts, h, rfl⟩
      obtain ⟨x, y, hx, hy, rfl⟩ := forall2_app h
      refine bind_ok.mpr ⟨_, (viewDst_ok (some s) _ rfl dd _).mpr ⟨x, hx, rfl⟩, bind_ok.mpr ⟨_, (ih _).mpr ⟨y, hy, rfl⟩, ?_⟩⟩
      rw [List.map_append]

/-- **C99** The printed lines are those of the machine's transitions, one for each, in order: source, text of the condition,
destination.  Nothing is printed only if the text of a condition cannot be made. -/
theorem C99_lines (m : Fsm) (ls : List Str) :
    m.view = .ok ls ↔ ∃ ts, List.Forall₂ Move.Tells m.moves ts ∧ ls = ts.map Told.line := by
  constructor
  · intro h
    obtain ⟨a, ha, h⟩ := bind_ok.mp h
    obtain ⟨b, hb, h⟩ := bind_ok.mp h
    obtain ⟨x, hx, rfl⟩ := (viewDst_ok none _ rfl m.any a).mp ha
    obtain ⟨y, hy, rfl⟩ := (viewStates_ok m.fsm b).mp hb
    refine ⟨x ++ y, forall2_join hx hy, ?_⟩
    rw [← ok_inj.mp h, List.map_append]
  · rintro ⟨ts, h, rfl⟩
    obtain ⟨x, y, hx, hy, rfl⟩ := forall2_app h
    refine bind_ok.mpr ⟨_, (viewDst_ok none _ rfl m.any _).mpr ⟨x, hx, rfl⟩, bind_ok.mpr ⟨_, (viewStates_ok m.fsm _).mpr ⟨y, hy, rfl⟩, ?_⟩⟩
    rw [List.map_append]

theorem first_sep {c : Char} : ∀ {a a' b b' : Str}, c ∉ a → c ∉ a' → a ++ c :: b = a' ++ c :: b' → a = a' ∧ b = b' := by
  intro a
  induction a with
  | nil =>
    intro a' b b' _ h' h
    cases a' with
    | nil => exact ⟨rfl, (List.cons.inj h).2⟩
    | cons x a' => exact absurd (List.cons.inj h).1.symm (fun e => h' (e ▸ List.mem_cons_self ..))
  | cons x a ih =>
    intro a' b b' h1 h2 h
    cases a' with
    | nil => exact absurd (List.cons.inj h).1 (fun e => h1 (e ▸ List.mem_cons_self ..))
    | cons y a' =>
      have e := (List.cons.inj h).1
      obtain ⟨e1, e2⟩ := ih (fun m => h1 (List.mem_cons_of_mem _ m)) (fun m => h2 (List.mem_cons_of_mem _ m)) (List.cons.inj h).2
      exact ⟨by rw [e, e1], e2⟩

theorem last_sep {c : Char} {a a' b b' : Str} (h1 : c ∉ b) (h2 : c ∉ b') (h : a ++ c :: b = a' ++ c :: b') : a = a' ∧ b = b' := by
  have h := congrArg List.reverse h
  simp only [List.reverse_append, List.reverse_cons, List.append_assoc, List.singleton_append] at h
  obtain ⟨e1, e2⟩ := first_sep (by simpa using h1) (by simpa using h2) h
  exact ⟨List.reverse_injective e2, List.reverse_injective e1⟩

theorem intStr_noSpace (n : Int) : ' ' ∉ intStr n := by
  intro h
  rcases intStr_chars n _ h with h | h
  · exact absurd h (by decide)
  · exact absurd h (by decide)

/-- **C99** A line tells one thing only: source, text of the condition and destination can be read from it. -/
theorem C99_line_tells (t u : Told) (h : t.line = u.line) : t = u := by
  obtain ⟨s, x, d⟩ := t
  obtain ⟨s', x', d'⟩ := u
  have arrow : ∀ (a : Str) (d : Int), a ++ "--> ".toList ++ intStr d = (a ++ "-->".toList) ++ ' ' :: intStr d := by
    intro a d; simp
  simp only [Told.line, arrow] at h
  obtain ⟨h, hd⟩ := last_sep (intStr_noSpace d) (intStr_noSpace d') h
  obtain rfl := intStr_inj' hd
  replace h := List.append_cancel_right h
  have ha : ∀ n : Int, intStr n ≠ "any".toList := by
    intro n e
    have := intStr_chars n 'a' (by rw [e]; decide)
    revert this
    decide
  cases s with
  | none =>
    cases s' with
    | none =>
      have e : "any -- ".toList ++ x = "any -- ".toList ++ x' := List.append_cancel_right h
      rw [List.append_cancel_left e]
    | some n =>
      exfalso
      replace h : "any".toList ++ ' ' :: ("-- ".toList ++ x ++ "-->".toList) = intStr n ++ ' ' :: ("--".toList ++ x' ++ "-->".toList) := by
        simpa using h
      exact ha n (first_sep (by decide) (intStr_noSpace n) h).1.symm
  | some n =>
    cases s' with
    | none =>
      exfalso
      replace h : intStr n ++ ' ' :: ("--".toList ++ x ++ "-->".toList) = "any".toList ++ ' ' :: ("-- ".toList ++ x' ++ "-->".toList) := by
        simpa using h
      exact ha n (first_sep (intStr_noSpace n) (by decide) h).1
    | some n' =>
      replace h : intStr n ++ ' ' :: ("--".toList ++ x ++ "-->".toList) = intStr n' ++ ' ' :: ("--".toList ++ x' ++ "-->".toList) := by
        simpa using h
      obtain ⟨e, e'⟩ := first_sep (intStr_noSpace n) (intStr_noSpace n') h
      rw [intStr_inj' e, List.append_cancel_left (List.append_cancel_right e')]

/-- **C99** The whole printed text, in which every line ends with a line break, tells its lines, if no condition's text has a line
break. -/
theorem C99_text_tells : ∀ (ts us : List Told), (∀ t ∈ ts, '\n' ∉ t.text) → (∀ t ∈ us, '\n' ∉ t.text) →
    ts.flatMap (fun t => t.line ++ ['\n']) = us.flatMap (fun t => t.line ++ ['\n']) → ts = us := by
  have hn : ∀ n : Int, '\n' ∉ intStr n := by
    intro n h
    rcases intStr_chars n _ h with h | h
    · exact absurd h (by decide)
    · exact absurd h (by decide)
  have hl : ∀ t : Told, '\n' ∉ t.text → '\n' ∉ t.line := by
    intro t h hm
    obtain ⟨s, x, d⟩ := t
    cases s with
    | none =>
      simp only [Told.line, List.mem_append] at hm
      rcases hm with ((hm | hm) | hm) | hm
      · exact absurd hm (by decide)
      · exact h hm
      · exact absurd hm (by decide)
      · exact hn d hm
    | some n =>
      simp only [Told.line, List.mem_append] at hm
      rcases hm with (((hm | hm) | hm) | hm) | hm
      · exact hn n hm
      · exact absurd hm (by decide)
      · exact h hm
      · exact absurd hm (by decide)
      · exact hn d hm
  intro ts
  induction ts with
  | nil =>
    intro us _ _ h
    cases us with
    | nil => rfl
    | cons u us => simp at h
  | cons t ts ih =>
    intro us h1 h2 h
    cases us with
    | nil => simp at h
    | cons u us =>
      rw [List.flatMap_cons, List.flatMap_cons, List.append_assoc, List.append_assoc] at h
      obtain ⟨e, h3⟩ := first_sep (hl t (h1 t (List.mem_cons_self ..))) (hl u (h2 u (List.mem_cons_self ..))) h
      obtain rfl := C99_line_tells t u e
      rw [ih us (fun x hx => h1 x (List.mem_cons_of_mem _ hx)) (fun x hx => h2 x (List.mem_cons_of_mem _ hx)) h3]

/-- Two transitions with the same source and destination, and both without condition, or with conditions that stand for the same
Verilog expression. -/
def Move.Same (a b : Move) : Prop :=
  a.src = b.src ∧ a.dst = b.dst ∧
    match a.cond, b.cond with
    | none, none => True
    | some c, some c' => ∀ e e', Means none c e → Means none c' e' → e = e'
    | _, _ => False

/-- The condition, if there is one, stands for a Verilog expression with plain names (as in C63), and is not the name `None`. -/
def Move.Plain (a : Move) : Prop := ∀ c, a.cond = some c → ∃ e, Means none c e ∧ e.Plain ∧ e ≠ .ident [] "None".toList

/-- **C99** Machines that are printed alike have the same transitions.  Missing: conditions that stand for no plain expression. -/
theorem C99_same_partial (m n : Fsm) (hm : ∀ a ∈ m.moves, a.Plain) (hn : ∀ a ∈ n.moves, a.Plain) (ls : List Str)
    (h : m.view = .ok ls) (h' : n.view = .ok ls) : List.Forall₂ Move.Same m.moves n.moves := by
  obtain ⟨ts, ht, rfl⟩ := (C99_lines m ls).mp h
  obtain ⟨us, hu, e⟩ := (C99_lines n _).mp h'
  obtain rfl : ts = us := (List.map_injective_iff.mpr (fun a b => C99_line_tells a b)) e
  clear h h' e
  have hnone : ∀ c e, Means none c e → e.Plain → c.tocode "dest".toList = .ok "None".toList → e = .ident [] "None".toList := by
    intro c e he hp hc
    rw [means_code (D := none) (fun _ h => by simp at h) c e he hp] at hc
    have hP : (Ex.ident [] "None".toList).Plain := ⟨rfl, ⟨'N', "one".toList, rfl, by decide, by decide⟩, by decide⟩
    have h1 := dcode_parses e hp
    rw [ok_inj.mp hc] at h1
    exact h1.unique (dcode_parses (.ident [] "None".toList) hP)
  generalize m.moves = a at *
  generalize n.moves = b at *
  induction ht generalizing b with
  | nil => cases hu; exact .nil
  | cons h1 h2 ih =>
    cases hu with
    | cons h3 h4 =>
      rename_i x t l₁ l₂ y l₃
      refine .cons ⟨h1.1.symm.trans h3.1, h1.2.1.symm.trans h3.2.1, ?_⟩
        (ih (fun z hz => hm z (List.mem_cons_of_mem _ hz)) _ (fun z hz => hn z (List.mem_cons_of_mem _ hz)) h4)
      have hx := hm x (List.mem_cons_self ..)
      have hy := hn y (List.mem_cons_self ..)
      have c1 := h1.2.2
      have c2 := h3.2.2
      obtain ⟨xs, xc, xd⟩ := x
      obtain ⟨ys, yc, yd⟩ := y
      cases xc with
      | none =>
        cases yc with
        | none => trivial
        | some c =>
          obtain ⟨e, he, hp, hne⟩ := hy c rfl
          exact hne (hnone c e he hp (by rw [← c1]; exact c2))
      | some c =>
        cases yc with
        | none =>
          obtain ⟨e, he, hp, hne⟩ := hx c rfl
          exact hne (hnone c e he hp (by rw [← c2]; exact c1))
        | some c' =>
          intro e e' he he'
          obtain ⟨f, hf, hfp, _⟩ := hx c rfl
          obtain ⟨f', hf', hfp', _⟩ := hy c' rfl
          obtain rfl := C63_means_unique none c _ _ hf he
          obtain rfl := C63_means_unique none c' _ _ hf' he'
          exact C63_injective none _ (fun _ h => by simp at h) c c' _ _ hf hf' hfp hfp' (c1.trans c2.symm)

/-- Machines with plain conditions are printed. -/
theorem C99_prints (m : Fsm) (hm : ∀ a ∈ m.moves, a.Plain) : ∃ ls, m.view = .ok ls := by
  suffices ∃ ts, List.Forall₂ Move.Tells m.moves ts by
    obtain ⟨ts, h⟩ := this
    exact ⟨_, (C99_lines m _).mpr ⟨ts, h, rfl⟩⟩
  generalize m.moves = a at *
  induction a with
  | nil => exact ⟨[], .nil⟩
  | cons x a ih =>
    obtain ⟨ts, h⟩ := ih (fun z hz => hm z (List.mem_cons_of_mem _ hz))
    have hx := hm x (List.mem_cons_self ..)
    obtain ⟨s, c, d⟩ := x
    cases c with
    | none => exact ⟨⟨s, "None".toList, d⟩ :: ts, .cons ⟨rfl, rfl, rfl⟩ h⟩
    | some c =>
      obtain ⟨e, he, hp, _⟩ := hx c rfl
      exact ⟨⟨s, e.dcode, d⟩ :: ts, .cons ⟨rfl, rfl, means_code (D := none) (fun _ h => by simp at h) c e he hp⟩ h⟩

/-! ### Examples -/

def c99any (n : String) : ScopeChain := [⟨n.toList, .any, none⟩]
def c99a : DF := .op .eq [.term (c99any "a"), .evi 1 (some 4)]
def c99m : Fsm := { fsm := [(0, [(some c99a, 1), (none, 2)]), (1, [(none, -1)])], any := [(some (.term (c99any "b")), 0)] }

example : c99m.view = .ok ["any -- b--> 0".toList, "0 --(a==4'd1)--> 1".toList, "0 --None--> 2".toList, "1 --None--> -1".toList] := by
  decide +kernel

theorem c99lit : IntLit "4'd1".toList :=
  .based "4".toList [] 'd' '1' [] (by decide) (Or.inl rfl) (Or.inr (Or.inr (Or.inr ⟨by decide, by decide⟩))) (by simp) (by simp)

/-- What C99_same_partial and C99_prints ask for. -/
example : ∀ a ∈ c99m.moves, a.Plain := by
  have h1 : Means none c99a (.bin .eq (.ident [] "a".toList) (.intc "4'd1".toList)) :=
    .bin _ _ _ _ _ (.term _) (.pos 1 (some 4) _ _ (.inr ⟨4, by decide, rfl, rfl⟩))
  intro a ha c hc
  simp only [c99m, Fsm.moves, List.map_cons, List.map_nil, List.flatMap_cons, List.flatMap_nil, List.append_nil, List.cons_append,
    List.nil_append, List.mem_cons, List.not_mem_nil, or_false] at ha
  rcases ha with rfl | rfl | rfl | rfl
  · cases hc
    exact ⟨_, .term _, ⟨rfl, ⟨'b', [], rfl, by decide, by decide⟩, by decide⟩, fun h => absurd (Ex.ident.inj h).2 (by decide)⟩
  · cases hc
    exact ⟨_, h1, ⟨rfl, ⟨rfl, ⟨'a', [], rfl, by decide, by decide⟩, by decide⟩, c99lit⟩, fun h => by cases h⟩
  · cases hc
  · cases hc

/-- **C99** is false for strings: a machine that waits for the signal `a` is printed as one whose condition is the text `a`. -/
theorem C99_fails_string :
    ({ fsm := [(0, [(some (.term (c99any "a")), 1)])] } : Fsm).view = ({ fsm := [(0, [(some (.strc "a".toList), 1)])] } : Fsm).view ∧
      (∃ ls, ({ fsm := [(0, [(some (.strc "a".toList), 1)])] } : Fsm).view = .ok ls) ∧ DF.term (c99any "a") ≠ .strc "a".toList :=
  ⟨by decide +kernel, ⟨_, rfl⟩, by decide⟩

end Pyv
