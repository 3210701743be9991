import Verif.DataflowCodegen
import Verif.Props.GenTextTerm
import Verif.Props.LexPosProps
import Verif.Props.ModuleProps
import Verif.Props.SubsetProps
import Verif.Props.BindTextValue
/-
  C84: the Verilog text of a whole dataflow (`VerilogCodeGenerator.generateCode`).
-/
namespace Pyv

/-! ## Specification -/

/-- The signal `k` is the clock or the reset of the top module. -/
def CodeCfg.Own (c : CodeCfg) (k : ScopeChain) : Prop :=
  ∃ a b : ScopeLabel, k = [a, b] ∧ a.name = c.top ∧ a.loop = none ∧ (b.name = c.reset ∨ b.name = c.clock) ∧ b.loop = none

instance (c : CodeCfg) : DecidablePred c.Own := fun k =>
  match k with
  | [a, b] => decidable_of_iff (a.name = c.top ∧ a.loop = none ∧ (b.name = c.reset ∨ b.name = c.clock) ∧ b.loop = none)
      ⟨fun h => ⟨a, b, rfl, h⟩, fun ⟨_, _, e, h⟩ => by cases e; exact h⟩
  | [] => isFalse (by rintro ⟨_, _, e, _⟩; cases e)
  | [_] => isFalse (by rintro ⟨_, _, e, _⟩; cases e)
  | _ :: _ :: _ :: _ => isFalse (by rintro ⟨_, _, e, _⟩; cases e)

/-- The signals which are neither the clock nor the reset input of the top module. -/
def CodeCfg.shown (c : CodeCfg) (ts : List (ScopeChain × Term)) : List (ScopeChain × Term) :=
  ts.filter (fun p => decide (¬ (.input ∈ p.2.types ∧ c.Own p.1)))

/-- The other ports of the top module. -/
def CodeCfg.ports (c : CodeCfg) (ts : List (ScopeChain × Term)) : List Str :=
  ((c.shown ts).filter (fun p => decide (p.1.length = 2 ∧ (.input ∈ p.2.types ∨ .inout ∈ p.2.types ∨ .output ∈ p.2.types)))).map (·.1.tocode)

/-- The declaration of one signal without a range. -/
def oneBit (k : SigKind) (n : Str) : MItem := .decl [.var ⟨k, n, none, false, none⟩]

/-- The flat names of the clock and the reset of the top module. -/
def CodeCfg.flatOf (c : CodeCfg) (n : Str) : Str := c.top ++ '_' :: n

/-- The inputs of the module, and the wires that carry the clock and the reset under their flat names. -/
def CodeCfg.sysItems (c : CodeCfg) : List MItem :=
  [oneBit .input c.clock, oneBit .input c.reset, oneBit .input c.enable, oneBit .wire (c.flatOf c.clock), oneBit .wire (c.flatOf c.reset),
    .assign (.ident [] (c.flatOf c.clock)) (.ident [] c.clock), .assign (.ident [] (c.flatOf c.reset)) (.ident [] c.reset)]

/-- All assignments, in the order of the text. -/
def Discretion.all (d : Discretion) (order : List Bind → List Bind) : List Bind :=
  d.parameter.map (·.2) ++ (d.assign.flatMap (fun p => order p.2) ++ (d.clockedge.flatMap (fun p => order p.2) ++
    d.combination.flatMap (fun p => order p.2)))

mutual
/-- No name and no constant of the tree is written with a dot. -/
def DF.Dotless : DF → Prop
  | .term n => '.' ∉ n.tocode
  | .intc s => '.' ∉ s
  | .fltc s => '.' ∉ s
  | .strc s => '.' ∉ s
  | .ev (.str s) _ _ _ => '.' ∉ s
  | .ev (.flt s) _ _ _ => '.' ∉ s
  | .op _ ns => DF.DotlessL ns
  | .psel v m l => v.Dotless ∧ m.Dotless ∧ l.Dotless
  | .ptr v p => v.Dotless ∧ p.Dotless
  | .concat ns => DF.DotlessL ns
  | .branch c t f => c.Dotless ∧ t.Dotless ∧ f.Dotless
  | .sys s ns => '.' ∉ s ∧ DF.DotlessL ns
  | _ => True
/-- `DF.Dotless` for lists. -/
def DF.DotlessL : List DF → Prop
  | [] => True
  | n :: ns => n.Dotless ∧ DF.DotlessL ns
end

/-- No part of the assignment is written with a dot. -/
def Bind.Dotless (b : Bind) : Prop :=
  '.' ∉ b.dest.tocode ∧ b.tree.Dotless ∧ b.ptr.Dotless ∧ b.msb.Dotless ∧ b.lsb.Dotless ∧
    ∀ a, b.always = some a → (∀ n, a.clockName = some n → '.' ∉ n.tocode) ∧ (∀ n, a.resetName = some n → '.' ∉ n.tocode) ∧
      (∀ e, a.clockEdge = some e → '.' ∉ e) ∧ (∀ e, a.resetEdge = some e → '.' ∉ e)

/-- No part of the declaration is written with a dot. -/
def Term.Dotless (t : Term) : Prop :=
  '.' ∉ t.name.tocode ∧ t.msb.Dotless ∧ t.lsb.Dotless ∧ ∀ ds, t.dims = some ds → ∀ d ∈ ds, d.1.Dotless ∧ d.2.Dotless

/-! ## Dots -/

theorem natStr_nodot (n : Nat) : '.' ∉ natStr n := by
  intro h
  have := natStr_digits n '.' h
  simp [isDig] at this

theorem widthStr_nodot (w : Option Int) : '.' ∉ widthStr w := by
  unfold widthStr
  split
  · simp
  · unfold intStr
    split
    · simp only [List.mem_cons, not_or]; exact ⟨by decide, natStr_nodot _⟩
    · exact natStr_nodot _
  · decide

theorem mark_nodot (o : Op) : '.' ∉ o.mark := by cases o <;> decide

/-- The fixed texts contain no dot. -/
theorem nodot_append {a b : Str} : '.' ∉ a ++ b ↔ '.' ∉ a ∧ '.' ∉ b := by simp [not_or]

theorem dotless_list {d : Str} {ns : List DF} (h : ∀ n ∈ ns, n.Dotless → ∀ s, n.tocode d = .ok s → '.' ∉ s) (hd : DF.DotlessL ns) :
    ∀ cs, DF.tocodeList d ns = .ok cs → ∀ c ∈ cs, '.' ∉ c := by
  induction ns with
  | nil => intro cs hc; simp only [DF.tocodeList, ok_inj] at hc; subst hc; simp
  | cons n ns ih =>
    intro cs hc
    simp only [DF.tocodeList, bind_ok] at hc
    obtain ⟨c, h1, cs', h2, h3⟩ := hc
    simp only [ok_inj] at h3
    subst h3
    intro x hx
    rcases List.mem_cons.mp hx with rfl | hx
    · exact h n (by simp) hd.1 _ h1
    · exact ih (fun m hm => h m (by simp [hm])) hd.2 _ h2 x hx

theorem nodot_commas {cs : List Str} (h : ∀ c ∈ cs, '.' ∉ c) : '.' ∉ (cs.map (· ++ ",".toList)).flatten := by
  simp only [List.mem_flatten, List.mem_map, not_exists, not_and]
  rintro x ⟨c, hc, rfl⟩
  rw [nodot_append]
  exact ⟨h c hc, by decide⟩

/-- The text of a side of a conditional. -/
def sideCode (d : Str) (x : DF) : Py Str := match x with | .none => .ok d | x => x.tocode d

/-- The text of a condition. -/
def condCode (d : Str) (c : DF) : Py Str := match c with | .none => .ok [] | c => do let x ← c.tocode d; .ok ("(".toList ++ x ++ ")".toList)

theorem branch_code (d : Str) (c t f : DF) : (DF.branch c t f).tocode d = (do
    let c' ← condCode d c
    let t' ← sideCode d t
    let f' ← sideCode d f
    .ok ("(".toList ++ c' ++ "? ".toList ++ t' ++ " : ".toList ++ f' ++ ")".toList)) := by
  have hs : ∀ (x : DF) (g : Str → Py Str), (sideCode d x >>= g) = (match x with | .none => g d | x => x.tocode d >>= g) := by
    intro x g
    cases x <;> rfl
  rw [DF.tocode.eq_def]
  simp only [condCode, hs]
  cases c <;> first | rfl | (simp only [bind_assoc]; rfl)

/-- The text of a condition of an always block. -/
def acondCode (d : Str) (c : DF) : Py Str := match c with | .none => .ok [] | c => c.tocode d

theorem branch_always (d : Str) (nb : Bool) (c t f : DF) : (DF.branch c t f).alwaysCode d nb = (do
    let c' ← acondCode d c
    let t' ← t.alwaysCode d nb
    let f' ← f.alwaysCode d nb
    .ok ("if(".toList ++ c' ++ ") begin\n".toList ++ t' ++ "end\n".toList ++
      (if f = .none then [] else "else begin\n".toList ++ f' ++ "end\n".toList))) := by
  cases c <;> rfl

/-- The text of a tree written without dots contains none. -/
theorem dotless_code {d : Str} (hd : '.' ∉ d) (t : DF) : t.Dotless → ∀ s, t.tocode d = .ok s → '.' ∉ s := by
  induction t using DF.ind with
  | none => intro _ s h; simp [DF.tocode] at h
  | term n => intro hn s h; simp only [DF.tocode, ok_inj] at h; subst h; exact hn
  | intc x => intro hn s h; simp only [DF.tocode, ok_inj] at h; subst h; exact hn
  | fltc x => intro hn s h; simp only [DF.tocode, ok_inj] at h; subst h; exact hn
  | strc x => intro hn s h; simp only [DF.tocode, ok_inj] at h; subst h; exact hn
  | ev v w b iss =>
    intro hn s h
    simp only [DF.tocode] at h
    split at h
    · simp only [ok_inj] at h; subst h; exact hn
    · simp only [ok_inj] at h
      subst h
      simp only [nodot_append]
      refine ⟨⟨⟨⟨?_, widthStr_nodot w⟩, by decide⟩, natStr_nodot _⟩, ?_⟩ <;> split <;> decide
    · simp only [ok_inj] at h
      subst h
      simp only [nodot_append]
      exact ⟨⟨widthStr_nodot w, by decide⟩, hn⟩
    · simp at h
  | undef w => intro _ s h; simp only [DF.tocode, ok_inj] at h; subst h; rw [nodot_append]; exact ⟨widthStr_nodot w, by decide⟩
  | hiz w => intro _ s h; simp only [DF.tocode, ok_inj] at h; subst h; rw [nodot_append]; exact ⟨widthStr_nodot w, by decide⟩
  | op o ns ih =>
    intro hn s h
    simp only [DF.tocode, bind_ok] at h
    obtain ⟨cs, h1, h2⟩ := h
    have hc := dotless_list ih hn cs h1
    split at h2
    · simp only [ok_inj] at h2; subst h2
      simp only [nodot_append]
      exact ⟨⟨⟨⟨by decide, hc _ (by simp)⟩, mark_nodot o⟩, hc _ (by simp)⟩, by decide⟩
    · simp only [ok_inj] at h2; subst h2
      simp only [nodot_append]
      exact ⟨⟨⟨by decide, mark_nodot o⟩, hc _ (by simp)⟩, by decide⟩
    · simp at h2
  | psel v m l ihv ihm ihl =>
    intro hn s h
    simp only [DF.tocode, bind_ok] at h
    obtain ⟨v', h1, m', h2, l', h3, h4⟩ := h
    have a1 := ihv hn.1 _ h1
    have a2 := ihm hn.2.1 _ h2
    have a3 := ihl hn.2.2 _ h3
    split at h4 <;> simp only [ok_inj] at h4 <;> subst h4 <;> simp only [nodot_append]
    · exact ⟨⟨⟨a1, by decide⟩, a2⟩, by decide⟩
    · exact ⟨⟨⟨⟨⟨a1, by decide⟩, a2⟩, by decide⟩, a3⟩, by decide⟩
  | ptr v p ihv ihp =>
    intro hn s h
    simp only [DF.tocode, bind_ok] at h
    obtain ⟨v', h1, p', h2, h3⟩ := h
    simp only [ok_inj] at h3; subst h3; simp only [nodot_append]
    exact ⟨⟨⟨ihv hn.1 _ h1, by decide⟩, ihp hn.2 _ h2⟩, by decide⟩
  | concat ns ih =>
    intro hn s h
    simp only [DF.tocode, bind_ok] at h
    obtain ⟨cs, h1, h2⟩ := h
    have hc := dotless_list ih hn cs h1
    simp only [ok_inj] at h2; subst h2; simp only [nodot_append]
    refine ⟨fun hx => ?_, by decide⟩
    have := List.mem_of_mem_dropLast hx
    rw [List.mem_append] at this
    rcases this with h | h
    · exact absurd h (by decide)
    · exact nodot_commas hc h
  | branch c t f ihc iht ihf =>
    intro hn s h
    rw [branch_code] at h
    simp only [bind_ok] at h
    obtain ⟨c', h1, t', h2, f', h3, h4⟩ := h
    have hside : ∀ (x : DF) (x' : Str), (∀ s, x.tocode d = .ok s → '.' ∉ s) → sideCode d x = .ok x' → '.' ∉ x' := by
      intro x x' ih h
      unfold sideCode at h
      split at h
      · simp only [ok_inj] at h; subst h; exact hd
      · exact ih _ h
    have a1 : '.' ∉ c' := by
      clear h2 h3 h4 iht ihf
      unfold condCode at h1
      split at h1
      · simp only [ok_inj] at h1; subst h1; simp
      · rw [bind_ok] at h1
        obtain ⟨x, h1, h5⟩ := h1
        simp only [ok_inj] at h5; subst h5; simp only [nodot_append]
        exact ⟨⟨by decide, ihc hn.1 _ h1⟩, by decide⟩
    simp only [ok_inj] at h4; subst h4; simp only [nodot_append]
    exact ⟨⟨⟨⟨⟨⟨by decide, a1⟩, by decide⟩, hside t t' (iht hn.2.1) h2⟩, by decide⟩, hside f f' (ihf hn.2.2) h3⟩, by decide⟩
  | delay n ih => intro _ s h; simp [DF.tocode] at h
  | sys f ns ih =>
    intro hn s h
    simp only [DF.tocode, bind_ok] at h
    obtain ⟨cs, h1, h2⟩ := h
    have hc := dotless_list ih hn.2 cs h1
    simp only [ok_inj] at h2; subst h2; simp only [nodot_append]
    refine ⟨fun hx => ?_, by decide⟩
    have := List.mem_of_mem_dropLast hx
    simp only [List.mem_append] at this
    rcases this with ((h | h) | h) | h
    · exact absurd h (by decide)
    · exact hn.1 h
    · exact absurd h (by decide)
    · exact nodot_commas hc h

theorem dotless_none {t : DF} (h : t.Dotless) {s : Str} (hs : t.tocodeNone = .ok s) : '.' ∉ s := by
  unfold DF.tocodeNone at hs
  split at hs
  · simp at hs
  · exact dotless_code (d := []) (by simp) t h s hs

theorem dotless_dest {b : Bind} (h : b.Dotless) {s : Str} (hs : b.getdest = .ok s) : '.' ∉ s := by
  obtain ⟨h1, _, h3, h4, h5, _⟩ := h
  simp only [Bind.getdest, bind_ok] at hs
  obtain ⟨d, hd, hs⟩ := hs
  have a : '.' ∉ d := by
    split at hd
    · simp only [bind_ok] at hd
      obtain ⟨p, hp, hd⟩ := hd
      simp only [ok_inj] at hd; subst hd; simp only [nodot_append]
      exact ⟨⟨⟨h1, by decide⟩, dotless_none h3 hp⟩, by decide⟩
    · simp only [ok_inj] at hd; subst hd; exact h1
  split at hs
  · simp only [bind_ok] at hs
    obtain ⟨m, hm, l, hl, hs⟩ := hs
    have b1 := dotless_none h4 hm
    have b2 := dotless_none h5 hl
    split at hs <;> simp only [ok_inj] at hs <;> subst hs <;> simp only [nodot_append]
    · exact ⟨⟨⟨a, by decide⟩, b1⟩, by decide⟩
    · exact ⟨⟨⟨⟨⟨a, by decide⟩, b1⟩, by decide⟩, b2⟩, by decide⟩
  · simp only [ok_inj] at hs; subst hs; exact a

theorem dotless_always {d : Str} (hd : '.' ∉ d) (nb : Bool) (t : DF) : t.Dotless → ∀ s, t.alwaysCode d nb = .ok s → '.' ∉ s := by
  have hval : ∀ t : DF, t.Dotless → ∀ s, (do
      let c ← t.tocode d
      .ok (d ++ (if nb then " <= ".toList else " = ".toList) ++ c ++ ";\n".toList) : Py Str) = .ok s → '.' ∉ s := by
    intro t ht s h
    simp only [bind_ok] at h
    obtain ⟨c, h1, h2⟩ := h
    simp only [ok_inj] at h2; subst h2; simp only [nodot_append]
    refine ⟨⟨⟨hd, ?_⟩, dotless_code hd t ht c h1⟩, by decide⟩
    cases nb <;> decide
  induction t using DF.ind with
  | none => intro _ s h; simp only [DF.alwaysCode, ok_inj] at h; subst h; simp
  | branch c t f _ iht ihf =>
    intro hn s h
    rw [branch_always] at h
    simp only [bind_ok] at h
    obtain ⟨c', h1, t', h2, f', h3, h4⟩ := h
    have a1 : '.' ∉ c' := by
      unfold acondCode at h1
      split at h1
      · simp only [ok_inj] at h1; subst h1; simp
      · exact dotless_code hd _ hn.1 _ h1
    have a2 := iht hn.2.1 _ h2
    have a3 := ihf hn.2.2 _ h3
    simp only [ok_inj] at h4; subst h4; simp only [nodot_append]
    refine ⟨⟨⟨⟨⟨by decide, a1⟩, by decide⟩, a2⟩, by decide⟩, ?_⟩
    split
    · simp
    · simp only [nodot_append]; exact ⟨⟨by decide, a3⟩, by decide⟩
  | _ => intro hn s h; exact hval _ hn s (by simpa only [DF.alwaysCode] using h)

theorem dotless_sens {a : AlwaysInfo} (h : (∀ n, a.clockName = some n → '.' ∉ n.tocode) ∧ (∀ n, a.resetName = some n → '.' ∉ n.tocode) ∧
      (∀ e, a.clockEdge = some e → '.' ∉ e) ∧ (∀ e, a.resetEdge = some e → '.' ∉ e)) : '.' ∉ a.codeSens := by
  obtain ⟨h1, h2, h3, h4⟩ := h
  unfold AlwaysInfo.codeSens
  rw [nodot_append]
  constructor
  · split
    · next e n he hn => simp only [nodot_append]; exact ⟨⟨h3 _ he, by decide⟩, h1 _ hn⟩
    · simp
  · split
    · next e n he hn => simp only [nodot_append]; exact ⟨⟨⟨by decide, h4 _ he⟩, by decide⟩, h2 _ hn⟩
    · simp

/-- The text of an assignment. -/
theorem dotless_bind {b : Bind} (h : b.Dotless) {s : Str} (hs : b.tocode = .ok s) : '.' ∉ s := by
  have hassign : ∀ (w : Str), '.' ∉ w → ∀ s, b.codeAssign w = .ok s → '.' ∉ s := by
    intro w hw s hs
    simp only [Bind.codeAssign, bind_ok] at hs
    obtain ⟨d, hd, c, hc, hs⟩ := hs
    have a := dotless_dest h hd
    simp only [ok_inj] at hs; subst hs; simp only [nodot_append]
    exact ⟨⟨⟨⟨⟨hw, by decide⟩, a⟩, by decide⟩, dotless_code a _ h.2.1 c hc⟩, by decide⟩
  have hbody : ∀ (d : Str) (nb : Bool), '.' ∉ d → ∀ s, b.codeBody d nb = .ok s → '.' ∉ s := by
    intro d nb hd s hs
    unfold Bind.codeBody at hs
    split at hs
    · simp at hs
    · exact dotless_always hd nb _ h.2.1 s hs
  unfold Bind.tocode at hs
  split at hs
  · exact hassign _ (by decide) s hs
  · split at hs
    · exact hassign _ (by decide) s hs
    · split at hs
      · exact hassign _ (by decide) s hs
      · next a ha =>
        split at hs
        · simp only [Bind.codeComb, bind_ok] at hs
          obtain ⟨d, hd, c, hc, hs⟩ := hs
          have a1 := dotless_dest h hd
          simp only [ok_inj] at hs; subst hs; simp only [nodot_append]
          exact ⟨⟨⟨⟨by decide, by decide⟩, hbody d _ a1 c hc⟩, by decide⟩, by decide⟩
        · simp only [Bind.codeClocked, bind_ok] at hs
          obtain ⟨d, hd, c, hc, hs⟩ := hs
          have a1 := dotless_dest h hd
          simp only [ok_inj] at hs; subst hs; simp only [nodot_append]
          exact ⟨⟨⟨⟨⟨by decide, dotless_sens (h.2.2.2.2.2 a ha)⟩, by decide⟩, hbody d _ a1 c hc⟩, by decide⟩, by decide⟩

theorem dotless_dims (ds : List (DF × DF)) (h : ∀ d ∈ ds, d.1.Dotless ∧ d.2.Dotless) : ∀ s, dfDimsCode ds = .ok s → '.' ∉ s := by
  induction ds with
  | nil => intro s hs; simp only [dfDimsCode, ok_inj] at hs; subst hs; simp
  | cons d ds ih =>
    intro s hs
    obtain ⟨l, r⟩ := d
    simp only [dfDimsCode, bind_ok] at hs
    obtain ⟨a, ha, b, hb, c, hc, hs⟩ := hs
    have h0 := h (l, r) (by simp)
    have hdd : '.' ∉ "dest".toList := by decide
    simp only [ok_inj] at hs; subst hs; simp only [nodot_append]
    exact ⟨⟨⟨⟨⟨by decide, dotless_code hdd _ h0.1 _ ha⟩, by decide⟩, dotless_code hdd _ h0.2 _ hb⟩, by decide⟩,
      ih (fun d hd => h d (by simp [hd])) c hc⟩

theorem words_nodot (t : Term) : '.' ∉ (t.words.map (· ++ " ".toList)).flatten := by
  rw [words_eq]
  generalize t.types.contains .input = a
  generalize t.types.contains .inout = b
  generalize t.types.contains .output = c
  generalize t.types.contains .reg = d
  generalize t.types.contains .wire = f
  generalize t.types.contains .function = g
  generalize t.types.contains .rename = h
  generalize t.types.contains .integer = i
  generalize decide (t.name.length = 2) = k
  revert a b c d f g h i k
  decide +kernel

/-- The text of a declaration. -/
theorem dotless_term {t : Term} (h : t.Dotless) {s : Str} (hs : t.tocode = .ok s) : '.' ∉ s := by
  obtain ⟨h1, h2, h3, h4⟩ := h
  simp only [Term.tocode, bind_ok] at hs
  obtain ⟨w, hw, ds, hd, hs⟩ := hs
  have a : '.' ∉ w := by
    split at hw
    · simp only [bind_ok] at hw
      obtain ⟨m, hm, l, hl, hw⟩ := hw
      simp only [ok_inj] at hw; subst hw; simp only [nodot_append]
      exact ⟨⟨⟨⟨by decide, dotless_none h2 hm⟩, by decide⟩, dotless_none h3 hl⟩, by decide⟩
    · simp only [ok_inj] at hw; subst hw; simp
  have b : '.' ∉ ds := by
    split at hd
    · simp only [ok_inj] at hd; subst hd; simp
    · next dl hdl => exact dotless_dims dl (h4 dl hdl) ds hd
  simp only [ok_inj] at hs; subst hs; simp only [nodot_append]
  exact ⟨⟨⟨⟨words_nodot t, a⟩, h1⟩, b⟩, by decide⟩

/-! ## The header -/

theorem flat_eq {top n : Str} (h1 : top ≠ []) (h2 : n ≠ []) : (toTermnameList [top, n]).tocode = top ++ '_' :: n := by
  simp [toTermnameList, ScopeChain.tocode, ScopeChain.tocodeParts, ScopeLabel.tocode, ScopeType.unprint, ScopeLabel.suffix, h1, h2]

theorem isSystem_iff (c : CodeCfg) (types : List TermType) (k : ScopeChain) :
    c.isSystem types k = true ↔ .input ∈ types ∧ c.Own k := by
  have hl : ∀ (a : ScopeLabel) (n : Str), a.pyEq ⟨n, .any, none⟩ = true ↔ a.name = n ∧ a.loop = none := by
    intro a n; simp [ScopeLabel.pyEq]
  have h2 : ∀ n : Str, ScopeChain.pyEq k (toTermnameList [c.top, n]) = true ↔
      ∃ a b : ScopeLabel, k = [a, b] ∧ (a.name = c.top ∧ a.loop = none) ∧ b.name = n ∧ b.loop = none := by
    intro n
    match k with
    | [] => simp [ScopeChain.pyEq, toTermnameList]
    | [a] => simp [ScopeChain.pyEq, toTermnameList]
    | [a, b] => simp [ScopeChain.pyEq, toTermnameList, hl]
    | a :: b :: x :: r => simp [ScopeChain.pyEq, toTermnameList]
  simp only [CodeCfg.isSystem, Bool.and_eq_true, Bool.or_eq_true, List.contains_iff_mem, h2, CodeCfg.Own]
  refine and_congr Iff.rfl ?_
  constructor
  · rintro (⟨a, b, e, h3, h4⟩ | ⟨a, b, e, h3, h4⟩)
    · exact ⟨a, b, e, h3.1, h3.2, .inl h4.1, h4.2⟩
    · exact ⟨a, b, e, h3.1, h3.2, .inr h4.1, h4.2⟩
  · rintro ⟨a, b, e, h3, h4, h5 | h5, h6⟩
    · exact .inl ⟨a, b, e, ⟨h3, h4⟩, h5, h6⟩
    · exact .inr ⟨a, b, e, ⟨h3, h4⟩, h5, h6⟩

theorem headPorts_eq (S : MergeEnv) (c : CodeCfg) (ts : List (ScopeChain × Term)) (hT : ∀ p ∈ ts, S.terms.get? p.1 = some p.2) :
    S.headPorts c ts = .ok ((c.ports ts).map (· ++ ", ".toList)).flatten := by
  induction ts with
  | nil => rfl
  | cons p ts ih =>
    have ih := ih (fun q hq => hT q (by simp [hq]))
    have ht := hT p (by simp)
    obtain ⟨k, t⟩ := p
    simp only at ht
    have htop : isTopmodule (getScope k) = true ↔ k.length = 2 := by simp [isTopmodule, getScope]
    have hs := isSystem_iff c t.types k
    simp only [MergeEnv.headPorts, ht, ih, ok_bind, CodeCfg.ports, CodeCfg.shown, List.filter_cons]
    by_cases h1 : k.length = 2
    · rw [if_pos (htop.mpr h1)]
      by_cases h2 : c.isSystem t.types k = true
      · have h2' := hs.mp h2
        simp [h2, h2'.1, h2'.2]
      · have h2' : ¬ (TermType.input ∈ t.types ∧ c.Own k) := fun h => h2 (hs.mpr h)
        simp only [Bool.not_eq_true] at h2
        rw [h2]
        rw [if_pos (decide_eq_true h2'), List.filter_cons, if_neg Bool.false_ne_true]
        by_cases h3 : TermType.input ∈ t.types ∨ TermType.inout ∈ t.types ∨ TermType.output ∈ t.types
        · rw [if_pos (by simpa [or_assoc] using h3), if_pos (by simpa [h1] using h3)]
          simp
        · rw [if_neg (by simpa [or_assoc] using h3), if_neg (by simpa [h1] using h3)]
    · rw [if_neg (by rw [htop]; exact h1)]
      by_cases h2 : TermType.input ∈ t.types ∧ c.Own k
      · rw [if_neg (by simpa using h2)]
      · rw [if_pos (decide_eq_true h2), List.filter_cons, if_neg (by simp [h1])]

/-- The header with the names of its ports. -/
def headText (c : CodeCfg) (ps : List Str) : Str :=
  "`default_nettype none\n".toList ++ ("module ".toList ++ (c.modname ++ ("(".toList ++
    ('\n' :: (List.replicate c.indent ' ' ++ (c.clock ++ (", ".toList ++ (c.reset ++ (", ".toList ++ (c.enable ++ (", ".toList ++
    ('\n' :: (List.replicate c.indent ' ' ++ (ps.map (· ++ ", ".toList)).flatten)))))))))))))

theorem modulehead_eq (S : MergeEnv) (c : CodeCfg) (ts : List (ScopeChain × Term)) (hT : ∀ p ∈ ts, S.terms.get? p.1 = some p.2) :
    S.modulehead c ts = .ok ((headText c (c.ports ts)).take ((headText c (c.ports ts)).length - 2) ++ ");\n\n".toList) := by
  have hb : ∀ x : Str, S.headPorts c ts = .ok x → ∀ g : Str → Py Str, (S.headPorts c ts >>= g) = g x := by
    intro x hx g; rw [hx]; rfl
  unfold MergeEnv.modulehead headText
  rw [hb _ (headPorts_eq S c ts hT)]
  generalize "`default_nettype none\n".toList = A1
  generalize "module ".toList = A2
  generalize "(".toList = A3
  generalize ");\n\n".toList = A4
  generalize ", ".toList = A5
  simp only [List.append_assoc, List.cons_append]

theorem cut_comma (a b : Str) : (a ++ (b ++ ", ".toList)).take ((a ++ (b ++ ", ".toList)).length - 2) = a ++ b := by
  rw [← List.append_assoc]
  have : (a ++ b ++ ", ".toList).length - 2 = (a ++ b).length := by
    simp only [List.length_append]; rfl
  rw [this, List.take_left']
  rfl

/-- The header without its last two characters. -/
theorem head_cut (c : CodeCfg) (init : List Str) (last : Str) :
    (headText c (init ++ [last])).take ((headText c (init ++ [last])).length - 2) =
      headText c init ++ last := by
  have : headText c (init ++ [last]) = headText c init ++ (last ++ ", ".toList) := by
    unfold headText
    generalize "`default_nettype none\n".toList = A1
    generalize "module ".toList = A2
    generalize "(".toList = A3
    generalize ", ".toList = A5
    simp only [List.map_append, List.flatten_append, List.map_cons, List.map_nil, List.flatten_cons, List.flatten_nil,
      List.append_nil, List.append_assoc, List.cons_append]
  rw [this]
  exact cut_comma _ _

theorem commaT_cons (a : List Tok) {r : List (List Tok)} (h : r ≠ []) : commaT (a :: r) = a ++ .p .comma :: commaT r := by
  cases r with
  | nil => exact absurd rfl h
  | cons b r => rfl

/-- A name in front of something. -/
theorem name_lx {x : Str} (hx : PlainId x) {d : Char} {r : Str} {ts : List Tok} (hd : isIdChar d = false ∧ d ≠ '\'' ∧ d ≠ '.' ∧ d ≠ '?')
    (hl : Lx (d :: r) ts) : Lx (x ++ d :: r) (.id x :: ts) :=
  dcode_lx (e := .ident [] x) ⟨rfl, hx⟩ hd hl

theorem comma_lx {x : Str} (hx : PlainId x) {r : Str} {ts : List Tok} (hl : Lx r ts) :
    Lx (x ++ (", ".toList ++ r)) (.id x :: .p .comma :: ts) :=
  name_lx hx (d := ',') (r := ' ' :: r) (by decide) (Lx.ch .comma ',' rfl rfl (Lx.sp1 hl))

theorem names_lx (init : List Str) (hi : ∀ x ∈ init, PlainId x) {r : Str} {ts : List Tok} (hl : Lx r ts) :
    Lx ((init.map (· ++ ", ".toList)).flatten ++ r) (init.flatMap (fun x => [.id x, .p .comma]) ++ ts) := by
  induction init with
  | nil => exact hl
  | cons x init ih =>
    simp only [List.map_cons, List.flatten_cons, List.flatMap_cons, List.append_assoc, List.cons_append, List.nil_append]
    exact comma_lx (hi x (by simp)) (ih (fun y hy => hi y (by simp [hy])))

theorem commaT_names (init : List Str) (last : Str) :
    commaT ((init ++ [last]).map (fun x => (PortD.port x).toks)) = init.flatMap (fun x => [.id x, .p .comma]) ++ [.id last] := by
  induction init with
  | nil => rfl
  | cons x init ih =>
    simp only [List.cons_append, List.map_cons, List.flatMap_cons]
    rw [commaT_cons _ (by simp), ih]
    simp [PortD.toks]

/-- The names the configuration gives are spelt as Verilog requires. -/
structure CodeCfg.Plain (c : CodeCfg) : Prop where
  modname : PlainId c.modname
  clock : PlainId c.clock
  reset : PlainId c.reset
  enable : PlainId c.enable
  top : c.top ≠ []
  flatClock : PlainId (c.flatOf c.clock)
  flatReset : PlainId (c.flatOf c.reset)

theorem directive_lx {r : Str} {ts : List Tok} (hl : Lx r ts) : Lx ("`default_nettype none\n".toList ++ r) ts := by
  have e : "`default_nettype none\n".toList ++ r = '`' :: ("default_nettype none".toList ++ '\n' :: r) := rfl
  rw [e]
  refine Lx.skip (by decide) ?_ hl
  have : scanSkip ('`' :: ("default_nettype none".toList ++ '\n' :: r)) = some r := by
    simp only [scanSkip]
    exact scanLine_some (by decide)
  unfold lexTok
  rw [this]

theorem replicate_sp (n : Nat) : ∀ c ∈ List.replicate n ' ', c = ' ' ∨ c = '\n' := by
  intro c hc; left; exact (List.mem_replicate.mp hc).2

/-- The header up to the first of the other ports. -/
theorem head_lx {c : CodeCfg} (h : c.Plain) (init : List Str) (hi : ∀ x ∈ init, PlainId x) {r : Str} {ts : List Tok} (hl : Lx r ts) :
    Lx (headText c init ++ r) (.kw "module".toList :: .id c.modname :: .p .lparen ::
      ((c.clock :: c.reset :: c.enable :: init).flatMap (fun x => [.id x, .p .comma]) ++ ts)) := by
  have h1 := names_lx init hi hl
  have h2 := Lx.nl (Lx.ws _ (replicate_sp c.indent) h1)
  have h3 := Lx.nl (Lx.ws _ (replicate_sp c.indent) (comma_lx h.clock (comma_lx h.reset (comma_lx h.enable h2))))
  have h4 := lx_module (name_lx h.modname (d := '(') (by decide) (Lx.ch .lparen '(' rfl rfl h3))
  have h5 := directive_lx h4
  simp only [List.flatMap_cons, List.append_assoc, List.cons_append, List.nil_append]
  have e : headText c init ++ r = "`default_nettype none\n".toList ++ ("module".toList ++ ' ' :: (c.modname ++ '(' :: '\n' ::
      (List.replicate c.indent ' ' ++ (c.clock ++ (", ".toList ++ (c.reset ++ (", ".toList ++ (c.enable ++ (", ".toList ++
      '\n' :: (List.replicate c.indent ' ' ++ ((init.map (· ++ ", ".toList)).flatten ++ r)))))))))) ) := by
    unfold headText
    rw [text_module]
    generalize "`default_nettype none\n".toList = A1
    generalize "module".toList = A2
    rw [show "(".toList = ['('] from rfl]
    generalize ", ".toList = A5
    simp only [List.append_assoc, List.cons_append, List.nil_append]
  rw [e]
  exact h5

/-! ## The items -/

theorem ItemReads.nl {c : Str} {i : MItem} (h : ItemReads c i) : ItemReads (c ++ "\n".toList) i := by
  obtain ⟨T, h1, h2⟩ := h
  refine ⟨T, fun r ts hl => ?_, h2⟩
  rw [List.append_assoc]
  exact h1 _ _ (Lx.nl hl)

theorem oneBit_reads (k : SigKind) {n : Str} (hn : PlainId n) : ItemReads (codeDecl k.word n) (oneBit k n) := by
  refine ⟨.kw k.word :: .id n :: [.p .semicolon], ?_, ?_⟩
  · intro r ts hl
    simp only [codeDecl, List.append_assoc, List.cons_append, List.nil_append]
    refine Lx.kw (sigWords_reserved _ (sigWord k).1) ?_ (Lx.sp1 (name_lx hn (by decide) (Lx.ch .semicolon ';' rfl rfl (Lx.nl hl))))
    intro d hd
    simp at hd; subst hd; decide
  · intro m ps ports is K ts
    refine .head (y := at' (.sig [k.word] none [] :: .body m ps ports is :: K) (.id n :: .p .semicolon :: ts)) ((body_std m ps ports is K).decl.1 k _) ?_
    refine .head (y := at' (.sigN [k.word] none [] n none :: .body m ps ports is :: K) (.p .semicolon :: ts)) rfl (.one ?_)
    have := createDecl_var k false none n none
    simp only [Bool.false_eq_true, if_false] at this
    simp only [mnext, mstep, stepSigN, List.nil_append, createDecls, this, List.append_nil, Option.bind_some]
    rfl

theorem link_reads {l r : Str} (hl : PlainId l) (hr : PlainId r) : ItemReads (codeAssignTo l r) (.assign (.ident [] l) (.ident [] r)) := by
  have h := dassign_reads (D := .ident [] l) (e := .ident [] r) ⟨⟨rfl, hl⟩, .inl rfl⟩ ⟨rfl, hr⟩
  have e : codeAssignTo l r = "assign".toList ++ " ".toList ++ (Ex.ident [] l).dcode ++ " = ".toList ++ (Ex.ident [] r).dcode ++ ";\n".toList := rfl
  rw [e]
  exact h

theorem system_reads {c : CodeCfg} (h : c.Plain) : ∃ cs : List Str, c.systemIo = cs.flatten ∧ List.Forall₂ ItemReads cs c.sysItems := by
  have hck : c.clock ≠ [] := by obtain ⟨⟨x, r, e, _⟩, _⟩ := h.clock; rw [e]; simp
  have hrs : c.reset ≠ [] := by obtain ⟨⟨x, r, e, _⟩, _⟩ := h.reset; rw [e]; simp
  refine ⟨[codeDecl "input".toList c.clock, codeDecl "input".toList c.reset, codeDecl "input".toList c.enable,
    codeDecl "wire".toList (c.flatOf c.clock), codeDecl "wire".toList (c.flatOf c.reset),
    codeAssignTo (c.flatOf c.clock) c.clock, codeAssignTo (c.flatOf c.reset) c.reset ++ "\n".toList], ?_, ?_⟩
  · unfold CodeCfg.systemIo
    simp only [flat_eq h.top hck, flat_eq h.top hrs, CodeCfg.flatOf]
    generalize "\n".toList = A
    generalize "input".toList = B
    generalize "wire".toList = C
    simp only [List.flatten_cons, List.flatten_nil, List.append_nil, List.append_assoc]
  · exact .cons (oneBit_reads .input h.clock) (.cons (oneBit_reads .input h.reset) (.cons (oneBit_reads .input h.enable)
      (.cons (oneBit_reads .wire h.flatClock) (.cons (oneBit_reads .wire h.flatReset) (.cons (link_reads h.flatClock h.clock)
      (.cons (link_reads h.flatReset h.reset).nl .nil))))))

theorem codeTerms_eq (S : MergeEnv) (c : CodeCfg) (ts : List (ScopeChain × Term)) (hT : ∀ p ∈ ts, S.terms.get? p.1 = some p.2) :
    ∀ {is : List MItem}, List.Forall₂ (fun p i => TermMeans p.2 i) (c.shown ts) is →
      ∃ cs, S.codeTerms c ts = .ok cs.flatten ∧ List.Forall₂ ItemReads cs is ∧
        ((∀ p ∈ c.shown ts, p.2.Dotless) → ∀ x ∈ cs, '.' ∉ x) := by
  induction ts with
  | nil => intro is h; cases h; exact ⟨[], rfl, .nil, by simp⟩
  | cons p ts ih =>
    intro is h
    have ih := @ih (fun q hq => hT q (by simp [hq]))
    have ht := hT p (by simp)
    obtain ⟨k, t⟩ := p
    simp only at ht
    have hs := isSystem_iff c t.types k
    simp only [CodeCfg.shown, List.filter_cons] at h
    simp only [MergeEnv.codeTerms, ht]
    by_cases h2 : TermType.input ∈ t.types ∧ c.Own k
    · rw [if_neg (by simpa using h2)] at h
      obtain ⟨cs, h3, h4, h5⟩ := ih h
      refine ⟨cs, ?_, h4, ?_⟩
      · simp only [hs.mpr h2, if_true, ok_bind, h3, List.nil_append]
      · intro hd
        refine h5 (fun p hp => hd p ?_)
        simp only [CodeCfg.shown, List.filter_cons]
        rw [if_neg (by simpa using h2)]
        exact hp
    · rw [if_pos (decide_eq_true h2)] at h
      cases h with
      | @cons _ i _ is h0 h =>
        obtain ⟨cs, h3, h4, h5⟩ := ih h
        obtain ⟨x, hx, hr⟩ := term_reads h0
        refine ⟨x :: cs, ?_, .cons hr h4, ?_⟩
        · have hf : c.isSystem t.types k = false := by
            rw [Bool.eq_false_iff]; exact fun h => h2 (hs.mp h)
          simp only [hf, Bool.false_eq_true, if_false, h3, hx, ok_bind, List.flatten_cons]
        · intro hd
          have hd' : ∀ p ∈ (k, t) :: c.shown ts, p.2.Dotless := by
            intro p hp
            refine hd p ?_
            simp only [CodeCfg.shown, List.filter_cons]
            rw [if_pos (decide_eq_true h2)]
            exact hp
          intro y hy
          rcases List.mem_cons.mp hy with rfl | hy
          · exact dotless_term (hd' (k, t) (by simp)) hx
          · exact h5 (fun p hp => hd' p (by simp [hp])) y hy

theorem codeBinds_eq (bs : List Bind) : ∀ {is : List MItem}, List.Forall₂ BindMeans bs is →
    ∃ cs, codeBinds bs = .ok cs.flatten ∧ List.Forall₂ ItemReads cs is ∧ ((∀ b ∈ bs, b.Dotless) → ∀ x ∈ cs, '.' ∉ x) := by
  induction bs with
  | nil => intro is h; cases h; exact ⟨[], rfl, .nil, by simp⟩
  | cons b bs ih =>
    intro is h
    cases h with
    | cons h0 h =>
      obtain ⟨cs, h3, h4, h5⟩ := ih h
      obtain ⟨x, hx, hr⟩ := bind_reads h0
      refine ⟨x :: cs, ?_, .cons hr h4, ?_⟩
      · simp only [codeBinds, hx, h3, ok_bind, List.flatten_cons]
      · intro hd y hy
        rcases List.mem_cons.mp hy with rfl | hy
        · exact dotless_bind (hd b (by simp)) hx
        · exact h5 (fun p hp => hd p (by simp [hp])) y hy

theorem codeBinds_append (a b : List Bind) : codeBinds (a ++ b) = (do
    let x ← codeBinds a
    let y ← codeBinds b
    .ok (x ++ y)) := by
  induction a with
  | nil => simp only [List.nil_append, codeBinds, ok_bind]; cases codeBinds b <;> rfl
  | cons x a ih =>
    simp only [List.cons_append, codeBinds, ih]
    cases x.tocode with
    | error e => rfl
    | ok s =>
      simp only [ok_bind]
      cases codeBinds a with
      | error e => rfl
      | ok s2 =>
        simp only [ok_bind]
        cases codeBinds b with
        | error e => rfl
        | ok s3 => simp only [ok_bind, List.append_assoc]

/-- The whole text, from its parts. -/
theorem genText_eq (S : MergeEnv) (c : CodeCfg) (order : List Bind → List Bind) (d : Discretion) {head ts bs : Str}
    (h1 : S.modulehead c d.terms = .ok head) (h2 : S.codeTerms c d.terms = .ok ts) (h3 : codeBinds (d.all order) = .ok bs) :
    S.genText c order d = .ok (let ret := head ++ (c.systemIo ++ (ts ++ bs)) ++ "\nendmodule\n".toList
      if c.flat then ret.map (fun x => if x = '.' then '_' else x) else ret) := by
  simp only [Discretion.all, codeBinds_append, bind_ok, ok_inj] at h3
  obtain ⟨p, hp, x, ⟨a, ha, y, ⟨k, hk, b, hb, rfl⟩, rfl⟩, rfl⟩ := h3
  unfold MergeEnv.genText codeSets
  generalize "\nendmodule\n".toList = E
  simp only [h1, h2, hp, ha, hk, hb, ok_bind, List.append_assoc]

/-- What the text of a dataflow is made of, and what its parts stand for. -/
structure GenMeans (S : MergeEnv) (c : CodeCfg) (order : List Bind → List Bind) (d : Discretion) (tis bis : List MItem) : Prop where
  names : c.Plain
  terms : ∀ p ∈ d.terms, S.terms.get? p.1 = some p.2
  keys : ∀ p ∈ d.terms, p.2.name = p.1
  decls : List.Forall₂ (fun p i => TermMeans p.2 i) (c.shown d.terms) tis
  binds : List.Forall₂ BindMeans (d.all order) bis
  dots : c.flat = true → (∀ p ∈ c.shown d.terms, p.2.Dotless) ∧ ∀ b ∈ d.all order, b.Dotless

theorem plain_nodot {s : Str} (h : PlainId s) : '.' ∉ s := by
  obtain ⟨⟨c, t, rfl, h1, h2⟩, _⟩ := h
  simp only [List.mem_cons, not_or]
  refine ⟨?_, fun hx => ?_⟩
  · rintro rfl; simp [isIdStart, isLet] at h1
  · have := h2 _ hx
    simp [isIdChar, isLet, isDig] at this

theorem GenMeans.ports {S : MergeEnv} {c : CodeCfg} {order : List Bind → List Bind} {d : Discretion} {tis bis : List MItem}
    (h : GenMeans S c order d tis bis) : ∀ x ∈ c.ports d.terms, PlainId x := by
  intro x hx
  simp only [CodeCfg.ports, List.mem_map, List.mem_filter] at hx
  obtain ⟨p, ⟨hp, _⟩, rfl⟩ := hx
  obtain ⟨i, _, hi⟩ := forall₂_mem_left h.decls p hp
  have hk := h.keys p (List.mem_filter.mp hp).1
  rw [← hk]
  cases hi with
  | integer _ _ _ h => exact h
  | sig _ _ _ _ _ _ _ h => exact h

theorem undot {s : Str} (h : '.' ∉ s) : s.map (fun x => if x = '.' then '_' else x) = s := by
  induction s with
  | nil => rfl
  | cons c s ih =>
    simp only [List.mem_cons, not_or] at h
    rw [List.map_cons, if_neg (Ne.symm h.1), ih h.2]

theorem headText_nodot {c : CodeCfg} (h : c.Plain) (init : List Str) (hi : ∀ x ∈ init, PlainId x) : '.' ∉ headText c init := by
  have h1 : '.' ∉ (init.map (· ++ ", ".toList)).flatten := by
    simp only [List.mem_flatten, List.mem_map, not_exists, not_and]
    rintro x ⟨y, hy, rfl⟩
    rw [nodot_append]
    exact ⟨plain_nodot (hi y hy), by decide⟩
  have h2 : '.' ∉ List.replicate c.indent ' ' := by
    intro hx
    exact absurd (List.mem_replicate.mp hx).2 (by decide)
  have h3 : '.' ≠ '\n' := by decide
  have a1 : '.' ∉ "`default_nettype none\n".toList := by decide
  have a2 : '.' ∉ "module ".toList := by decide
  have a3 : '.' ∉ "(".toList := by decide
  have a4 : '.' ∉ ", ".toList := by decide
  unfold headText
  generalize "`default_nettype none\n".toList = A1 at *
  generalize "module ".toList = A2 at *
  generalize "(".toList = A3 at *
  generalize ", ".toList = A4 at *
  simp only [List.mem_append, List.mem_cons, not_or]
  exact ⟨a1, a2, plain_nodot h.modname, a3, h3, h2, plain_nodot h.clock, a4, plain_nodot h.reset, a4, plain_nodot h.enable, a4, h3, h2, h1⟩

theorem system_nodot {c : CodeCfg} (h : c.Plain) : '.' ∉ c.systemIo := by
  have hck : c.clock ≠ [] := by obtain ⟨⟨x, r, e, _⟩, _⟩ := h.clock; rw [e]; simp
  have hrs : c.reset ≠ [] := by obtain ⟨⟨x, r, e, _⟩, _⟩ := h.reset; rw [e]; simp
  have b1 := plain_nodot h.flatClock
  have b2 := plain_nodot h.flatReset
  have b3 := plain_nodot h.clock
  have b4 := plain_nodot h.reset
  have b5 := plain_nodot h.enable
  have hd : ∀ w n : Str, '.' ∉ w → '.' ∉ n → '.' ∉ codeDecl w n := by
    intro w n hw hn
    simp only [codeDecl, nodot_append]
    exact ⟨⟨⟨hw, by decide⟩, hn⟩, by decide⟩
  have ha : ∀ l r : Str, '.' ∉ l → '.' ∉ r → '.' ∉ codeAssignTo l r := by
    intro l r hl hr
    have w1 : '.' ∉ "assign ".toList := by decide
    have w2 : '.' ∉ " = ".toList := by decide
    have w3 : '.' ∉ ";\n".toList := by decide
    unfold codeAssignTo
    generalize "assign ".toList = A1 at *
    generalize " = ".toList = A2 at *
    generalize ";\n".toList = A3 at *
    rw [nodot_append, nodot_append, nodot_append, nodot_append]
    exact ⟨⟨⟨⟨w1, hl⟩, w2⟩, hr⟩, w3⟩
  have w1 : '.' ∉ "input".toList := by decide
  have w2 : '.' ∉ "wire".toList := by decide
  have w3 : '.' ∉ "\n".toList := by decide
  unfold CodeCfg.systemIo
  simp only [flat_eq h.top hck, flat_eq h.top hrs]
  generalize "input".toList = A1 at *
  generalize "wire".toList = A2 at *
  generalize "\n".toList = A3 at *
  rw [nodot_append, nodot_append, nodot_append, nodot_append, nodot_append, nodot_append, nodot_append]
  exact ⟨⟨⟨⟨⟨⟨⟨hd _ _ w1 b3, hd _ _ w1 b4⟩, hd _ _ w1 b5⟩, hd _ _ w2 b1⟩, hd _ _ w2 b2⟩, ha _ _ b1 b3⟩, ha _ _ b2 b4⟩, w3⟩

theorem nodot_flatten {cs : List Str} (h : ∀ x ∈ cs, '.' ∉ x) : '.' ∉ cs.flatten := by
  simp only [List.mem_flatten, not_exists, not_and]
  exact h

/-- The text of a dataflow: the header, without its last two characters, the items, the end. -/
theorem genText_parts {S : MergeEnv} {c : CodeCfg} {order : List Bind → List Bind} {d : Discretion} {tis bis : List MItem}
    (h : GenMeans S c order d tis bis) :
    ∃ cs : List Str, List.Forall₂ ItemReads cs (c.sysItems ++ (tis ++ bis)) ∧
      S.genText c order d = .ok ((headText c (c.ports d.terms)).take ((headText c (c.ports d.terms)).length - 2) ++
        (");\n\n".toList ++ (cs.flatten ++ "\nendmodule\n".toList))) := by
  obtain ⟨cs0, e0, r0⟩ := system_reads h.names
  obtain ⟨cs1, e1, r1, n1⟩ := codeTerms_eq S c d.terms h.terms h.decls
  obtain ⟨cs2, e2, r2, n2⟩ := codeBinds_eq _ h.binds
  have key := genText_eq S c order d (modulehead_eq S c d.terms h.terms) e1 e2
  have hnd : c.flat = true → '.' ∉ (headText c (c.ports d.terms)).take ((headText c (c.ports d.terms)).length - 2) ++ ");\n\n".toList ++
      (c.systemIo ++ (cs1.flatten ++ cs2.flatten)) ++ "\nendmodule\n".toList := by
    intro hf
    obtain ⟨d1, d2⟩ := h.dots hf
    have k1 : '.' ∉ (headText c (c.ports d.terms)).take ((headText c (c.ports d.terms)).length - 2) :=
      fun hx => headText_nodot h.names _ h.ports (List.mem_of_mem_take hx)
    have k2 : '.' ∉ ");\n\n".toList := by decide
    have k3 : '.' ∉ "\nendmodule\n".toList := by decide
    rw [nodot_append, nodot_append, nodot_append, nodot_append, nodot_append]
    exact ⟨⟨⟨k1, k2⟩, system_nodot h.names, nodot_flatten (n1 d1), nodot_flatten (n2 d2)⟩, k3⟩
  refine ⟨cs0 ++ (cs1 ++ cs2), List.rel_append r0 (List.rel_append r1 r2), ?_⟩
  rw [key]
  generalize (headText c (c.ports d.terms)).take ((headText c (c.ports d.terms)).length - 2) = H at *
  generalize "\nendmodule\n".toList = E at *
  generalize ");\n\n".toList = P at *
  congr 1
  simp only
  rw [show H ++ (P ++ ((cs0 ++ (cs1 ++ cs2)).flatten ++ E)) = H ++ P ++ (c.systemIo ++ (cs1.flatten ++ cs2.flatten)) ++ E by
    rw [e0]; simp only [List.flatten_append, List.append_assoc]]
  split
  · next hf => exact undot (hnd hf)
  · rfl

/-! ## C84 -/

theorem lx_tail : Lx ("\nendmodule\n".toList) [.kw "endmodule".toList] := Lx.nl lx_endmodule

/-- The names of the ports read back. -/
def CodeCfg.allPorts (c : CodeCfg) (d : Discretion) : List Str := c.clock :: c.reset :: c.enable :: c.ports d.terms

/-- **C84** (part) The text of a dataflow is read back by the parser as one module: its ports are the clock, the reset, the
enable input and the other ports of the top module, its items the wires for clock and reset, one declaration for every
signal but the clock and the reset input, and one item for every assignment, in the order of the dataflow.  Missing:
dataflows without other ports in the top module (`C84_no_ports`), dots in constants (`C84_fails_float`), and what C78 excludes. -/
theorem C84_reads_partial (S : MergeEnv) (c : CodeCfg) (order : List Bind → List Bind) (d : Discretion) (tis bis : List MItem)
    (h : GenMeans S c order d tis bis) (hp : c.ports d.terms ≠ []) :
    ∃ text, S.genText c order d = .ok text ∧
      SourceParsesTo text [⟨c.modname, [], (c.allPorts d).map .port, c.sysItems ++ (tis ++ bis)⟩] := by
  obtain ⟨cs, hr, ht⟩ := genText_parts h
  refine ⟨_, ht, ?_⟩
  obtain ⟨T, h1, h2⟩ := items_read hr
  have hports := h.ports
  obtain ⟨init, last, e⟩ : ∃ init last, c.ports d.terms = init ++ [last] := ⟨_, _, (List.dropLast_append_getLast hp).symm⟩
  rw [e] at hports
  rw [e, head_cut]
  have hl : Lx (headText c init ++ last ++ (");\n\n".toList ++ (cs.flatten ++ "\nendmodule\n".toList)))
      (.kw "module".toList :: .id c.modname :: .p .lparen ::
        (commaT ((c.clock :: c.reset :: c.enable :: (init ++ [last])).map (fun x => (PortD.port x).toks)) ++ .p .rparen :: .p .semicolon ::
          (T ++ [.kw "endmodule".toList]))) := by
    have k1 := h1 _ _ lx_tail
    generalize "\nendmodule\n".toList = E at *
    generalize Tok.kw "endmodule".toList = K at *
    have k2 : Lx (last ++ ')' :: ';' :: '\n' :: '\n' :: (cs.flatten ++ E)) (.id last :: .p .rparen :: .p .semicolon :: (T ++ [K])) :=
      name_lx (hports last (by simp)) (by decide) (Lx.ch .rparen ')' rfl rfl (Lx.ch .semicolon ';' rfl rfl (Lx.nl (Lx.nl k1))))
    have k3 := head_lx h.names init (fun x hx => hports x (by simp [hx])) k2
    have ec := commaT_names (c.clock :: c.reset :: c.enable :: init) last
    simp only [List.cons_append] at ec
    rw [ec]
    have et : headText c init ++ last ++ (");\n\n".toList ++ (cs.flatten ++ E)) =
        headText c init ++ (last ++ ')' :: ';' :: '\n' :: '\n' :: (cs.flatten ++ E)) := by
      rw [List.append_assoc]; rfl
    rw [et]
    simp only [List.append_assoc, List.cons_append, List.nil_append] at k3 ⊢
    exact k3
  refine ⟨_, hl.toLex, ?_⟩
  refine MSt.parse (x := at' [.defs []] _) (ms := [⟨c.modname, [], (c.allPorts d).map .port, c.sysItems ++ (tis ++ bis)⟩]) ?_ (by simp)
  generalize hxs : c.clock :: c.reset :: c.enable :: (init ++ [last]) = xs
  have hxs' : c.allPorts d = xs := by rw [← hxs, CodeCfg.allPorts, e]
  have hne : xs ≠ [] := by rw [← hxs]; simp
  refine .head (y := at' (.mod c.modname none :: [.defs []]) (.p .lparen :: (commaT (xs.map (fun x => (PortD.port x).toks)) ++ .p .rparen :: .p .semicolon ::
      (T ++ [.kw "endmodule".toList])))) rfl ?_
  refine .head (y := at' (.plist [] :: .mod c.modname none :: [.defs []]) (commaT (xs.map (fun x => (PortD.port x).toks)) ++ .p .rparen :: .p .semicolon ::
      (T ++ [.kw "endmodule".toList]))) ?_ ?_
  · subst hxs; rfl
  refine (plist_read xs hne c.modname none [.defs []] (T ++ [.kw "endmodule".toList]) []).trans ?_
  rw [hxs']
  simp only [Option.getD_none, List.nil_append]
  refine (h2 c.modname [] (xs.map .port) [] [.defs []] [.kw "endmodule".toList]).trans (.one rfl)

/-- A state from which the parser cannot go on is not passed. -/
theorem MSt.stuck {x y : MS} (h : MSt x y) (hy : mnext y = none) (hf : ∀ ms, ¬ (y.1 = [.defs ms] ∧ y.2.2.2 = [])) :
    ∀ n, mparseN n x.1 x.2.1 x.2.2.1 x.2.2.2 = none := by
  induction h with
  | @refl x =>
    intro n
    cases n with
    | zero => rfl
    | succ n =>
      obtain ⟨m, o, i, ts⟩ := x
      unfold mparseN
      split
      · next ms e1 e2 =>
        simp only at e1 e2
        subst e1 e2
        exact absurd ⟨rfl, rfl⟩ (hf ms)
      · have : mstep m o i ts = none := hy
        simp only [this]
  | @head x y z hs _ ih =>
    intro n
    cases n with
    | zero => rfl
    | succ n =>
      obtain ⟨m, o, i, ts⟩ := x
      unfold mparseN
      split
      · next ms e1 e2 =>
        exfalso
        simp only at e1 e2
        subst e1 e2
        simp [mnext, mstep, stepDefs] at hs
      · have : mstep m o i ts = some y := hs
        simp only [this]
        exact ih hy hf n

end Pyv
