import Verif.Props.BindText
/-
  C84, first half: the text printed for a declared signal (`Term.tocode`) reads back as its declaration.
-/
namespace Pyv

/-! ## Specification -/

/-- `t.Shows k`: the signal is declared as a `k`.  Ports are ports in the top module only; elsewhere they are wires (an
`output reg` is the register it is). -/
def Term.Shows (t : Term) : SigKind → Prop
  | .input => t.name.length = 2 ∧ .input ∈ t.types
  | .inout => t.name.length = 2 ∧ .inout ∈ t.types ∧ .input ∉ t.types
  | .output => t.name.length = 2 ∧ .output ∈ t.types ∧ .input ∉ t.types ∧ .inout ∉ t.types
  | .wire => .wire ∈ t.types ∨ .function ∈ t.types ∨ .rename ∈ t.types ∨
      t.name.length ≠ 2 ∧ (.input ∈ t.types ∨ .inout ∈ t.types ∨ .output ∈ t.types ∧ .reg ∉ t.types)
  | .reg => .reg ∈ t.types
  | .tri => False

instance (t : Term) : DecidablePred t.Shows := fun k => by cases k <;> unfold Term.Shows <;> infer_instance

/-- The kinds of the declaration, in the order of the parser. -/
def Term.kinds (t : Term) : List SigKind := [SigKind.input, .output, .inout, .wire, .reg].filter (fun k => decide (t.Shows k))

/-- The range of a declaration: both bounds, or none. -/
inductive WidthMeans (t : Term) : Option WRange → Prop
  | bit : t.msb = .none ∨ t.lsb = .none → WidthMeans t none
  | range (m l : Ex) : Means none t.msb m → m.Plain → Means none t.lsb l → l.Plain → WidthMeans t (some (m, l))

/-- The bounds of one dimension of an array. -/
def DimMeans (d : DF × DF) (r : WRange) : Prop := (Means none d.1 r.1 ∧ r.1.Plain) ∧ (Means none d.2 r.2 ∧ r.2.Plain)

/-- The dimensions of an array. -/
inductive DimsMeans : Option (List (DF × DF)) → Option (List WRange) → Prop
  | one : DimsMeans none none
  | array (ds : List (DF × DF)) (rs : List WRange) : ds ≠ [] → List.Forall₂ DimMeans ds rs → DimsMeans (some ds) (some rs)

/-- `TermMeans t i`: the module item `i` declares the signal `t` under its flat name. -/
inductive TermMeans (t : Term) : MItem → Prop
  | integer : .integer ∈ t.types → (∀ k, ¬ t.Shows k) → t.dims = none → PlainId t.name.tocode → TermMeans t (.decl [.int t.name.tocode none])
  | sig (wd : Option WRange) (ds : Option (List WRange)) : .integer ∉ t.types → (∃ k, t.Shows k) →
      ¬ (t.Shows .reg ∧ (t.Shows .input ∨ t.Shows .inout)) → WidthMeans t wd → DimsMeans t.dims ds → PlainId t.name.tocode →
      TermMeans t (.decl (t.kinds.map (fun k => .var ⟨k, t.name.tocode, wd, false, ds⟩)))

/-! ## The words -/

/-- The words of a declaration from its properties. -/
def wordsOf (top input inout output reg wire integer func ren : Bool) : List Str :=
  (if top then
    if input then ["input".toList] else if inout then ["inout".toList]
    else if output then ["output".toList] else []
  else
    if input then ["wire".toList] else if inout then ["wire".toList]
    else if output && !reg then ["wire".toList] else []) ++
  (if reg then ["reg".toList] else []) ++ (if wire then ["wire".toList] else []) ++
  (if integer then ["integer".toList] else []) ++ (if func then ["wire".toList] else []) ++
  (if ren then ["wire".toList] else [])

theorem words_eq (t : Term) : t.words = wordsOf (decide (t.name.length = 2)) (t.types.contains .input) (t.types.contains .inout)
    (t.types.contains .output) (t.types.contains .reg) (t.types.contains .wire) (t.types.contains .integer)
    (t.types.contains .function) (t.types.contains .rename) := by
  have h : t.name.dropLast.length = 1 ↔ t.name.length = 2 := by simp
  simp only [Term.words, wordsOf, h, decide_eq_true_eq]

/-- The kinds of a declaration from its properties. -/
def kindsOf (top input inout output reg wire func ren : Bool) : List SigKind :=
  (if top && input then [.input] else []) ++ (if top && output && !input && !inout then [.output] else []) ++
  (if top && inout && !input then [.inout] else []) ++
  (if wire || func || ren || (!top && (input || inout || (output && !reg))) then [.wire] else []) ++
  (if reg then [.reg] else [])

theorem kinds_eq (t : Term) : t.kinds = kindsOf (decide (t.name.length = 2)) (t.types.contains .input) (t.types.contains .inout)
    (t.types.contains .output) (t.types.contains .reg) (t.types.contains .wire)
    (t.types.contains .function) (t.types.contains .rename) := by
  have h1 : decide (t.Shows .input) = (decide (t.name.length = 2) && t.types.contains .input) := by
    rw [Bool.eq_iff_iff, decide_eq_true_iff]; simp [Term.Shows]
  have h2 : decide (t.Shows .output) = (decide (t.name.length = 2) && t.types.contains .output && !t.types.contains .input && !t.types.contains .inout) := by
    rw [Bool.eq_iff_iff, decide_eq_true_iff]; simp [Term.Shows, and_assoc]
  have h3 : decide (t.Shows .inout) = (decide (t.name.length = 2) && t.types.contains .inout && !t.types.contains .input) := by
    rw [Bool.eq_iff_iff, decide_eq_true_iff]; simp [Term.Shows, and_assoc]
  have h4 : decide (t.Shows .wire) = (t.types.contains .wire || t.types.contains .function || t.types.contains .rename ||
      (!decide (t.name.length = 2) && (t.types.contains .input || t.types.contains .inout || (t.types.contains .output && !t.types.contains .reg)))) := by
    rw [Bool.eq_iff_iff, decide_eq_true_iff]; simp [Term.Shows, or_assoc]
  have h5 : decide (t.Shows .reg) = t.types.contains .reg := by
    rw [Bool.eq_iff_iff, decide_eq_true_iff]; simp [Term.Shows]
  simp only [Term.kinds, List.filter_cons, List.filter_nil, h1, h2, h3, h4, h5, kindsOf]
  clear h1 h2 h3 h4 h5
  generalize t.types.contains .input = a
  generalize t.types.contains .inout = b
  generalize t.types.contains .output = c
  generalize t.types.contains .reg = d
  generalize t.types.contains .wire = f
  generalize t.types.contains .function = g
  generalize t.types.contains .rename = h
  generalize decide (t.name.length = 2) = k
  revert a b c d f g h k
  decide +kernel

theorem wordsOf_sig : ∀ top input inout output reg wire func ren : Bool,
    kindsOf top input inout output reg wire func ren ≠ [] →
    ¬ (reg = true ∧ top = true ∧ (input = true ∨ inout = true)) →
    (wordsOf top input inout output reg wire false func ren ≠ []) ∧
    (∀ w ∈ wordsOf top input inout output reg wire false func ren, w ∈ sigWords) ∧
    declOK (wordsOf top input inout output reg wire false func ren) (some []) = true ∧
    (kindsOf top input inout output reg wire func ren) = [SigKind.input, .output, .inout, .wire, .reg].filter
      (fun k => decide (k.word ∈ wordsOf top input inout output reg wire false func ren)) ∧
    ("signed".toList ∉ wordsOf top input inout output reg wire false func ren) ∧
    ("tri".toList ∉ wordsOf top input inout output reg wire false func ren) ∧
    ("supply0".toList ∉ wordsOf top input inout output reg wire false func ren) ∧
    ("supply1".toList ∉ wordsOf top input inout output reg wire false func ren) := by
  decide +kernel

theorem wordsOf_int : ∀ top input inout output reg wire func ren : Bool,
    kindsOf top input inout output reg wire func ren = [] → wordsOf top input inout output reg wire true func ren = ["integer".toList] := by
  decide +kernel

theorem declOK_dims {ws : List Str} (d : Option (List WRange)) (h : declOK ws (some []) = true) : declOK ws d = true := by
  cases d with
  | none =>
    simp only [declOK, Option.isSome_some, Option.isSome_none, Bool.and_true, Bool.and_false, Bool.not_false, Bool.true_and, Bool.and_eq_true] at h ⊢
    tauto
  | some _ => exact h

theorem createDecl_kinds {ws : List Str} {ks : List SigKind} (hok : declOK ws (some []) = true)
    (hk : ks = [SigKind.input, .output, .inout, .wire, .reg].filter (fun k => decide (k.word ∈ ws)))
    (h1 : "signed".toList ∉ ws) (h2 : "tri".toList ∉ ws) (h3 : "supply0".toList ∉ ws) (h4 : "supply1".toList ∉ ws)
    (wd : Option WRange) (n : Str) (d : Option (List WRange)) :
    createDecl ws wd n d = some (ks.map (fun k => .var ⟨k, n, wd, false, d⟩)) := by
  have htri : SigKind.tri.word ∉ ws := h2
  simp only [createDecl, declOK_dims d hok, if_true, if_neg h3, if_neg h4, h1, decide_false, if_neg htri, List.append_nil, Option.some.injEq]
  subst hk
  simp only [List.filter_cons, List.filter_nil, decide_eq_true_eq]
  by_cases a1 : SigKind.input.word ∈ ws <;> by_cases a2 : SigKind.output.word ∈ ws <;> by_cases a3 : SigKind.inout.word ∈ ws <;>
    by_cases a4 : SigKind.wire.word ∈ ws <;> by_cases a5 : SigKind.reg.word ∈ ws <;> simp [a1, a2, a3, a4, a5]

/-! ## Reading -/

/-- A range. -/
theorem drng_read {m : List MSym} {r : WRange} (h1 : r.1.Plain) (h2 : r.2.Plain) {ts : List Tok} {x : MS} (hg : giveRange r m ts = some x)
    (hm : ∀ ts', mnext (at' m (.p .lbracket :: ts')) = go (.wid1 :: m) ts') :
    MSt (at' m (.p .lbracket :: (r.1.dtoks ++ .p .colon :: (r.2.dtoks ++ .p .rbracket :: ts)))) x := by
  refine .head (hm _) ((lift_mex (x := .wid1) trivial m (dex_parse h1 (t := .p .colon) rfl _)).trans ?_)
  refine .head (y := at' (.wid2 r.1 :: m) (r.2.dtoks ++ .p .rbracket :: ts)) rfl ?_
  exact (lift_mex (x := .wid2 r.1) trivial m (dex_parse h2 (t := .p .rbracket) rfl ts)).trans (.one hg)

/-- The text of a range. -/
def drngCode (r : WRange) : Str := '[' :: (r.1.dcode ++ ':' :: (r.2.dcode ++ [']']))

/-- The tokens of a range. -/
def drngToks (r : WRange) : List Tok := .p .lbracket :: (r.1.dtoks ++ .p .colon :: (r.2.dtoks ++ [.p .rbracket]))

theorem drng_lx {r : WRange} (h1 : r.1.Plain) (h2 : r.2.Plain) {c : Str} {ts : List Tok} (hl : Lx c ts) :
    Lx (drngCode r ++ c) (drngToks r ++ ts) := by
  simp only [drngCode, drngToks, List.append_assoc, List.cons_append, List.nil_append]
  refine Lx.ch .lbracket '[' rfl rfl (dcode_lx h1 (by decide) (Lx.ch .colon ':' rfl rfl (dcode_lx h2 (by decide) ?_)))
  exact Lx.ch .rbracket ']' rfl rfl hl

theorem dsigN_dims (ws : List Str) (wd : Option WRange) (n : Str) (m : List MSym) (ls : List WRange)
    (h : ∀ r ∈ ls, r.1.Plain ∧ r.2.Plain) (ts : List Tok) : ∀ d : Option (List WRange), ls ≠ [] ∨ d ≠ none →
    MSt (at' (.sigN ws wd [] n d :: m) (ls.flatMap drngToks ++ ts)) (at' (.sigN ws wd [] n (some (d.getD [] ++ ls)) :: m) ts) := by
  induction ls with
  | nil =>
    intro d hd
    cases d with
    | none => simp at hd
    | some d => simp only [List.flatMap_nil, List.nil_append, Option.getD_some, List.append_nil]; exact .refl
  | cons r ls ih =>
    intro d _
    simp only [List.flatMap_cons, List.append_assoc]
    have h0 := h r (by simp)
    have h1 := drng_read (m := .sigN ws wd [] n d :: m) h0.1 h0.2 (ts := ls.flatMap drngToks ++ ts)
      (x := at' (.sigN ws wd [] n (some (d.getD [] ++ [r])) :: m) (ls.flatMap drngToks ++ ts)) rfl (fun _ => rfl)
    have h2 := ih (fun r hr => h r (by simp [hr])) (some (d.getD [] ++ [r])) (.inr (by simp))
    simp only [Option.getD_some, List.append_assoc, List.cons_append, List.nil_append] at h2
    simp only [drngToks, List.append_assoc, List.cons_append, List.nil_append]
    exact h1.trans h2

theorem dims_code {ds : List (DF × DF)} {rs : List WRange} (h : List.Forall₂ DimMeans ds rs) :
    dfDimsCode ds = .ok (rs.flatMap drngCode) ∧ ∀ r ∈ rs, r.1.Plain ∧ r.2.Plain := by
  induction h with
  | nil => exact ⟨rfl, by simp⟩
  | @cons d r ds rs h1 _ ih =>
    obtain ⟨l, u⟩ := d
    obtain ⟨⟨a1, a2⟩, b1, b2⟩ := h1
    have hc : ∀ {t : DF} {e : Ex}, Means none t e → e.Plain → t.tocode "dest".toList = .ok e.dcode := by
      intro t e h hp
      exact means_code (D := none) (fun _ h => by simp at h) t e h hp
    refine ⟨?_, ?_⟩
    · simp only [dfDimsCode, hc a1 a2, hc b1 b2, ih.1, ok_bind]
      simp [drngCode]
    · intro x hx
      rcases List.mem_cons.mp hx with rfl | hx
      · exact ⟨a2, b2⟩
      · exact ih.2 x hx

theorem dims_lx (rs : List WRange) (h : ∀ r ∈ rs, r.1.Plain ∧ r.2.Plain) {c : Str} {ts : List Tok} (hl : Lx c ts) :
    Lx (rs.flatMap drngCode ++ c) (rs.flatMap drngToks ++ ts) := by
  induction rs with
  | nil => exact hl
  | cons r rs ih =>
    simp only [List.flatMap_cons, List.append_assoc]
    exact drng_lx (h r (by simp)).1 (h r (by simp)).2 (ih (fun x hx => h x (by simp [hx])))

theorem words_lx (ws : List Str) (h : ∀ w ∈ ws, w ∈ reservedWords) {c : Str} {ts : List Tok} (hl : Lx c ts) :
    Lx ((ws.map (· ++ " ".toList)).flatten ++ c) (ws.map Tok.kw ++ ts) := by
  induction ws with
  | nil => exact hl
  | cons w ws ih =>
    simp only [List.map_cons, List.flatten_cons, List.append_assoc, List.cons_append]
    refine Lx.kw (h w (by simp)) ?_ (Lx.sp1 (ih (fun x hx => h x (by simp [hx]))))
    intro d hd
    simp at hd; subst hd; decide

theorem words_read (K : List MSym) (ws : List Str) (h : ∀ w ∈ ws, w ∈ sigWords) (ts : List Tok) : ∀ ws0 : List Str,
    MSt (at' (.sig ws0 none [] :: K) (ws.map Tok.kw ++ ts)) (at' (.sig (ws0 ++ ws) none [] :: K) ts) := by
  induction ws with
  | nil => intro ws0; simp only [List.map_nil, List.nil_append, List.append_nil]; exact .refl
  | cons w ws ih =>
    intro ws0
    simp only [List.map_cons, List.cons_append]
    refine .head (y := at' (.sig (ws0 ++ [w]) none [] :: K) (ws.map Tok.kw ++ ts)) ?_ ?_
    · have := h w (by simp)
      simp only [mnext, mstep, stepSig, Option.isNone_none, List.isEmpty_nil, this, and_self, if_true]
      rfl
    · have := ih (fun x hx => h x (by simp [hx])) (ws0 ++ [w])
      simpa using this

theorem sigWords_reserved : ∀ w ∈ sigWords, w ∈ reservedWords := by decide +kernel

/-- The text of a declared signal is read as its declaration. -/
theorem term_reads {t : Term} {i : MItem} (h : TermMeans t i) : ∃ c, t.tocode = .ok c ∧ ItemReads c i := by
  have hname : ∀ {d : Char} {r : Str} {ts : List Tok}, PlainId t.name.tocode → (isIdChar d = false ∧ d ≠ '\'' ∧ d ≠ '.' ∧ d ≠ '?') → Lx (d :: r) ts →
      Lx (t.name.tocode ++ d :: r) (.id t.name.tocode :: ts) := by
    intro d r ts hx hd hl
    exact dcode_lx (e := .ident [] t.name.tocode) ⟨rfl, hx⟩ hd hl
  cases h with
  | integer hi hno hdim hp =>
    have hk : t.kinds = [] := by
      rw [Term.kinds, List.filter_eq_nil_iff]
      intro k _; simp [hno k]
    have hw : t.words = ["integer".toList] := by
      rw [words_eq]
      have : t.types.contains .integer = true := by simpa using hi
      rw [this]
      exact wordsOf_int _ _ _ _ _ _ _ _ (by rw [← kinds_eq]; exact hk)
    have hc : t.types.contains .integer = true := by simpa using hi
    refine ⟨("integer".toList ++ " ".toList) ++ t.name.tocode ++ ";\n".toList, ?_, ?_⟩
    · simp only [Term.tocode, hw, hc, hdim, ok_bind]
      simp [ok_bind]
    · refine ⟨.kw "integer".toList :: .id t.name.tocode :: [.p .semicolon], ?_, ?_⟩
      · intro r ts hl
        simp only [List.append_assoc, List.cons_append, List.nil_append]
        refine Lx.word "integer" (by decide +kernel) (c := ' ') (by decide) (Lx.sp1 ?_)
        exact hname hp (by decide) (Lx.ch .semicolon ';' rfl rfl (Lx.nl hl))
      · intro n ps ports is m ts
        refine .head (y := at' (.ints [] :: .body n ps ports is :: m) (.id t.name.tocode :: .p .semicolon :: ts)) rfl (.one rfl)
  | sig wd ds hi hsh hok hwd hds hp =>
    have hc : t.types.contains .integer = false := by simpa using hi
    have hk : t.kinds ≠ [] := by
      obtain ⟨k, hk⟩ := hsh
      rw [Term.kinds, Ne, List.filter_eq_nil_iff]
      push_neg
      refine ⟨k, ?_, by simpa using hk⟩
      cases k <;> first | exact absurd hk id | simp
    have hw := wordsOf_sig (decide (t.name.length = 2)) (t.types.contains .input) (t.types.contains .inout)
      (t.types.contains .output) (t.types.contains .reg) (t.types.contains .wire) (t.types.contains .function) (t.types.contains .rename)
      (by rw [← kinds_eq]; exact hk) (by
        rintro ⟨a, b, c⟩
        simp only [decide_eq_true_eq, List.contains_iff_mem] at a b c
        refine hok ⟨a, ?_⟩
        by_cases hin : TermType.input ∈ t.types
        · exact .inl ⟨b, hin⟩
        · exact .inr ⟨b, c.resolve_left hin, hin⟩)
    rw [← hc, ← words_eq, ← kinds_eq] at hw
    obtain ⟨w1, w2, w3, w4, w5, w6, w7, w8⟩ := hw
    -- the width
    have hW : ∃ (wc : Str) (wt : List Tok), (if t.types.contains .integer = false ∧ t.msb ≠ .none ∧ t.lsb ≠ .none then do
        let m ← t.msb.tocodeNone
        let l ← t.lsb.tocodeNone
        .ok ("[".toList ++ m ++ ":".toList ++ l ++ "] ".toList)
      else .ok [] : Py Str) = .ok wc ∧ (∀ r ts, Lx r ts → Lx (wc ++ r) (wt ++ ts)) ∧
        ∀ (ws : List Str) (K : List MSym) (ts : List Tok), MSt (at' (.sig ws none [] :: K) (wt ++ ts)) (at' (.sig ws wd [] :: K) ts) := by
      cases hwd with
      | bit hb =>
        refine ⟨[], [], if_neg (by tauto), fun r ts h => h, fun ws K ts => .refl⟩
      | range m l hm pm hl pl =>
        have n1 : t.msb ≠ .none := by intro e; rw [e] at hm; cases hm
        have n2 : t.lsb ≠ .none := by intro e; rw [e] at hl; cases hl
        refine ⟨drngCode (m, l) ++ [' '], drngToks (m, l), ?_, ?_, ?_⟩
        · rw [if_pos ⟨hc, n1, n2⟩, means_codeNone hm pm, means_codeNone hl pl]
          simp [ok_bind, drngCode]
        · intro r ts h
          rw [List.append_assoc]
          exact drng_lx (r := (m, l)) pm pl (Lx.sp1 h)
        · intro ws K ts
          have := drng_read (m := .sig ws none [] :: K) (r := (m, l)) pm pl (ts := ts) (x := at' (.sig ws (some (m, l)) [] :: K) ts) rfl (fun _ => rfl)
          simp only [drngToks, List.append_assoc, List.cons_append, List.nil_append]
          exact this
    -- the dimensions
    have hD : ∃ (dc : Str) (dt : List Tok), (match t.dims with
        | none => .ok []
        | some ds => dfDimsCode ds : Py Str) = .ok dc ∧ (∀ r ts, Lx (';' :: r) ts → Lx (dc ++ ';' :: r) (dt ++ ts)) ∧
        (dc ++ [';']).head? ∈ [some ';', some '['] ∧
        ∀ (ws : List Str) (n : Str) (K : List MSym) (ts : List Tok), MSt (at' (.sigN ws wd [] n none :: K) (dt ++ ts)) (at' (.sigN ws wd [] n ds :: K) ts) := by
      generalize t.dims = td at hds
      cases hds with
      | one => exact ⟨[], [], rfl, fun r ts h => h, by simp, fun _ _ _ _ => .refl⟩
      | array dl rs hne hf =>
        obtain ⟨d1, d2⟩ := dims_code hf
        have hrs : rs ≠ [] := by rintro rfl; cases hf; exact hne rfl
        refine ⟨_, rs.flatMap drngToks, d1, fun r ts h => dims_lx rs d2 h, ?_, ?_⟩
        · cases rs with
          | nil => exact absurd rfl hrs
          | cons r rs => simp [drngCode]
        · intro ws n K ts
          have := dsigN_dims ws wd n K rs d2 ts none (.inl hrs)
          simpa using this
    obtain ⟨wc, wt, a1, a2, a3⟩ := hW
    obtain ⟨dc, dt, b1, b2, b3, b4⟩ := hD
    have htext : t.tocode = .ok ((t.words.map (· ++ " ".toList)).flatten ++ wc ++ t.name.tocode ++ dc ++ ";\n".toList) := by
      unfold Term.tocode
      rw [a1]
      simp only [ok_bind]
      cases hdims : t.dims with
      | none => rw [hdims] at b1; simp only [ok_inj] at b1; subst b1; rfl
      | some dl => rw [hdims] at b1; simp only [b1, ok_bind]
    refine ⟨_, htext, ?_⟩
    generalize t.words = ws at w1 w2 w3 w4 w5 w6 w7 w8
    refine ⟨ws.map Tok.kw ++ (wt ++ .id t.name.tocode :: (dt ++ [.p .semicolon])), ?_, ?_⟩
    · intro r ts hl
      simp only [List.append_assoc, List.cons_append, List.nil_append]
      refine words_lx ws (fun w hw => sigWords_reserved w (w2 w hw)) (a2 _ _ ?_)
      have h3 : Lx (dc ++ ';' :: '\n' :: r) (dt ++ .p .semicolon :: ts) := b2 _ _ (Lx.ch .semicolon ';' rfl rfl (Lx.nl hl))
      have e : dc ++ (";\n".toList ++ r) = dc ++ ';' :: '\n' :: r := rfl
      rw [e]
      cases dc with
      | nil => exact hname hp (by decide) h3
      | cons d dc =>
        simp only [List.cons_append, List.head?_cons, List.mem_cons, Option.some.injEq, List.not_mem_nil, or_false] at b3
        simp only [List.cons_append] at h3 ⊢
        refine hname hp ?_ h3
        rcases b3 with rfl | rfl <;> decide
    · intro n ps ports is m ts
      simp only [List.append_assoc, List.cons_append, List.nil_append]
      generalize hK : MSym.body n ps ports is :: m = K
      have hstd : DeclCtx K := hK ▸ (body_std n ps ports is m).decl
      cases ws with
      | nil => exact absurd rfl w1
      | cons w ws =>
        simp only [List.map_cons, List.cons_append]
        have hw0 := w2 w (by simp)
        refine MSt.trans (y := at' (.sig (w :: ws) none [] :: K) (wt ++ .id t.name.tocode :: (dt ++ .p .semicolon :: ts))) ?_ ?_
        · refine .head (y := at' (.sig [w] none [] :: K) (ws.map Tok.kw ++ (wt ++ .id t.name.tocode :: (dt ++ .p .semicolon :: ts)))) ?_ ?_
          · subst hK
            rw [body_std n ps ports is m (.kw w) _ (show w ∈ itemWords from List.mem_append_left _ hw0)]
            simp only [stdItem, if_pos hw0]
            rfl
          · have := words_read K ws (fun x hx => w2 x (by simp [hx])) (wt ++ .id t.name.tocode :: (dt ++ .p .semicolon :: ts)) [w]
            simpa using this
        · refine (a3 _ _ _).trans ?_
          refine .head (y := at' (.sigN (w :: ws) wd [] t.name.tocode none :: K) (dt ++ .p .semicolon :: ts)) rfl ?_
          refine (b4 _ _ _ _).trans (.one ?_)
          have hcd := createDecl_kinds w3 w4 w5 w6 w7 w8 wd t.name.tocode ds
          simp only [mnext, mstep, stepSigN, List.nil_append, createDecls, hcd, List.append_nil, Option.bind_some]
          subst hK
          rfl

end Pyv
