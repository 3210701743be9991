import Verif.Props.DumpProps
/-
  C87, continued: the dump of a declared signal; counterexamples; examples.
-/
namespace Pyv

theorem insertStr_perm (x : Str) (l : List Str) : List.Perm (insertStr x l) (x :: l) := by
  induction l with
  | nil => exact .refl _
  | cons y ys ih =>
    unfold insertStr
    split
    · exact .refl _
    · exact (ih.cons y).trans (.swap x y ys)

theorem sortTypes_mem (ts : List TermType) (x : Str) :
    x ∈ ts.foldr (fun t l => insertStr t.name l) [] ↔ ∃ t ∈ ts, t.name = x := by
  induction ts with
  | nil => simp
  | cons t ts ih =>
    rw [List.foldr_cons, (insertStr_perm _ _).mem_iff, List.mem_cons, ih]
    simp [eq_comm]

theorem typeName_inj {a b : TermType} (h : a.name = b.name) : a = b := by
  cases a <;> cases b <;> first | rfl | (exact absurd h (by decide +kernel))

theorem typeName_chars (t : TermType) : ∀ c ∈ t.name, c ≠ '\'' ∧ c ≠ ']' := by cases t <;> decide +kernel

theorem sort_names {ts : List TermType} : ∀ x ∈ ts.foldr (fun t l => insertStr t.name l) [], ∀ c ∈ x, c ≠ '\'' ∧ c ≠ ']' := by
  intro x hx
  obtain ⟨t, _, rfl⟩ := (sortTypes_mem ts x).mp hx
  exact typeName_chars t

/-- The quoted names. -/
def quoted (xs : List Str) : Str := (xs.map (fun x => "'".toList ++ x ++ "', ".toList)).flatten

theorem quoted_cons (x : Str) (xs : List Str) : quoted (x :: xs) = "'".toList ++ x ++ "', ".toList ++ quoted xs := by
  simp [quoted]

theorem quoted_end (xs : List Str) (h : xs ≠ []) : ∃ y, quoted xs = y ++ "', ".toList := by
  induction xs with
  | nil => exact absurd rfl h
  | cons x xs ih =>
    rw [quoted_cons]
    cases xs with
    | nil => exact ⟨"'".toList ++ x, by simp [quoted]⟩
    | cons y ys =>
      obtain ⟨z, hz⟩ := ih (by simp)
      exact ⟨"'".toList ++ x ++ "', ".toList ++ z, by rw [hz]; simp⟩

theorem quoted_inj {xs ys : List Str} (hx : ∀ x ∈ xs, '\'' ∉ x) (hy : ∀ y ∈ ys, '\'' ∉ y) (h : quoted xs = quoted ys) : xs = ys := by
  induction xs generalizing ys with
  | nil =>
    cases ys with
    | nil => rfl
    | cons y ys => rw [quoted_cons] at h; simp [quoted] at h
  | cons x xs ih =>
    cases ys with
    | nil => rw [quoted_cons] at h; simp [quoted] at h
    | cons y ys =>
      rw [quoted_cons, quoted_cons] at h
      have h' : x ++ ("', ".toList ++ quoted xs) = y ++ ("', ".toList ++ quoted ys) := by simpa using h
      have h1 := tw_dw (p := (· ≠ '\'')) (a := x) (r := "', ".toList ++ quoted xs)
        (fun c hc => by simp only [decide_eq_true_eq]; rintro rfl; exact hx x (by simp) hc) (by simp)
      have h2 := tw_dw (p := (· ≠ '\'')) (a := y) (r := "', ".toList ++ quoted ys)
        (fun c hc => by simp only [decide_eq_true_eq]; rintro rfl; exact hy y (by simp) hc) (by simp)
      rw [h'] at h1
      have e1 : x = y := h1.1.symm.trans h2.1
      have e2 := h1.2.symm.trans h2.2
      have e3 : quoted xs = quoted ys := List.append_cancel_left e2
      rw [e1, ih (fun z hz => hx z (List.mem_cons_of_mem _ hz)) (fun z hz => hy z (List.mem_cons_of_mem _ hz)) e3]

theorem typesDump_inj {ts ts' : List TermType} {r r' : Str} (e : typesDump ts ++ r = typesDump ts' ++ r') :
    (∀ t, t ∈ ts ↔ t ∈ ts') ∧ r = r' := by
  have key : ∀ us : List TermType, ∃ y : Str, typesDump us = "[".toList ++ y ++ "]".toList ∧ (∀ c ∈ y, c ≠ ']') ∧
      ((us.foldr (fun t l => insertStr t.name l) [] = [] ∧ y = []) ∨
        (us.foldr (fun t l => insertStr t.name l) [] ≠ [] ∧ quoted (us.foldr (fun t l => insertStr t.name l) []) = y ++ ", ".toList)) := by
    intro us
    have hs := sort_names (ts := us)
    unfold typesDump
    generalize us.foldr (fun t l => insertStr t.name l) [] = xs at hs ⊢
    refine ⟨(quoted xs).dropLast.dropLast, rfl, ?_, ?_⟩
    · intro c hc
      have hm : c ∈ quoted xs := List.dropLast_subset _ (List.dropLast_subset _ hc)
      simp only [quoted, List.mem_flatten, List.mem_map] at hm
      obtain ⟨w, ⟨x, hx, rfl⟩, hcw⟩ := hm
      simp only [List.mem_append] at hcw
      rcases hcw with (hcw | hcw) | hcw
      · have : c = '\'' := by simpa using hcw
        rw [this]; decide
      · exact (hs x hx c hcw).2
      · have : c = '\'' ∨ c = ',' ∨ c = ' ' := by simpa using hcw
        rcases this with rfl | rfl | rfl <;> decide
    · by_cases hx : xs = []
      · subst hx; exact .inl ⟨rfl, rfl⟩
      · obtain ⟨y, hy⟩ := quoted_end xs hx
        refine .inr ⟨hx, ?_⟩
        have : y ++ "', ".toList = (y ++ "'".toList) ++ [',', ' '] := by simp
        rw [hy, this]
        have e2 : y ++ "'".toList ++ [',', ' '] = (y ++ "'".toList ++ [',']) ++ [' '] := by simp
        rw [e2, List.dropLast_concat, List.dropLast_concat]
        simp
  obtain ⟨y, h1, h2, h3⟩ := key ts
  obtain ⟨y', h1', h2', h3'⟩ := key ts'
  rw [h1, h1'] at e
  have e' : y ++ ("]".toList ++ r) = y' ++ ("]".toList ++ r') := by simpa using e
  have t1 := tw_dw (p := (· ≠ ']')) (a := y) (r := "]".toList ++ r) (fun c hc => by simpa using h2 c hc) (by simp)
  have t2 := tw_dw (p := (· ≠ ']')) (a := y') (r := "]".toList ++ r') (fun c hc => by simpa using h2' c hc) (by simp)
  rw [e'] at t1
  have ey : y = y' := t1.1.symm.trans t2.1
  have er : r = r' := by simpa using t1.2.symm.trans t2.2
  refine ⟨?_, er⟩
  have hxs : ts.foldr (fun t l => insertStr t.name l) [] = ts'.foldr (fun t l => insertStr t.name l) [] := by
    subst ey
    have qne : ∀ {us : List TermType}, us.foldr (fun t l => insertStr t.name l) [] ≠ [] →
        ¬ quoted (us.foldr (fun t l => insertStr t.name l) []) = [] ++ ", ".toList := by
      intro us hu h
      cases hus : us.foldr (fun t l => insertStr t.name l) [] with
      | nil => exact hu hus
      | cons x xs => rw [hus, quoted_cons] at h; simp at h
    rcases h3 with ⟨a, b⟩ | ⟨a, b⟩ <;> rcases h3' with ⟨a', b'⟩ | ⟨a', b'⟩
    · rw [a, a']
    · subst b; exact absurd b' (qne a')
    · subst b'; exact absurd b (qne a)
    · exact quoted_inj (fun x hx hc => (sort_names x hx _ hc).1 rfl) (fun x hx hc => (sort_names x hx _ hc).1 rfl) (b.trans b'.symm)
  intro t
  have h4 := sortTypes_mem ts t.name
  have h5 := sortTypes_mem ts' t.name
  rw [hxs] at h4
  have h6 := h4.symm.trans h5
  have nm : ∀ us : List TermType, (∃ u ∈ us, u.name = t.name) ↔ t ∈ us :=
    fun us => ⟨fun ⟨u, hu, hn⟩ => typeName_inj hn ▸ hu, fun h => ⟨t, h, rfl⟩⟩
  rwa [nm, nm] at h6

/-- The dimensions are plain. -/
def plainDims (d : Option (List (DF × DF))) : Bool := (d.getD []).all (fun p => p.1.plain && p.2.plain)

/-- The dimensions without the types of the scopes in their names. -/
def noTypesDims (d : Option (List (DF × DF))) : Option (List (DF × DF)) := d.map (fun l => l.map (fun p => (p.1.noTypes, p.2.noTypes)))

theorem dims_inj {ds ds' : List (DF × DF)} {x x' : Str} (hp : ds.all (fun p => p.1.plain && p.2.plain) = true)
    (hp' : ds'.all (fun p => p.1.plain && p.2.plain) = true) (h : dimsDump ds = .ok x) (h' : dimsDump ds' = .ok x')
    (e : x ++ ")".toList = x' ++ ")".toList) :
    ds.map (fun p => (p.1.noTypes, p.2.noTypes)) = ds'.map (fun p => (p.1.noTypes, p.2.noTypes)) := by
  induction ds generalizing ds' x x' with
  | nil =>
    cases ok_inj.mp h
    cases ds' with
    | nil => rfl
    | cons p ds' =>
      unfold dimsDump at h'
      obtain ⟨a, _, h'⟩ := bind_ok.mp h'
      obtain ⟨b, _, h'⟩ := bind_ok.mp h'
      obtain ⟨c, _, h'⟩ := bind_ok.mp h'
      cases ok_inj.mp h'
      simp at e
  | cons q ds ih =>
    cases ds' with
    | nil =>
      cases ok_inj.mp h'
      unfold dimsDump at h
      obtain ⟨a, _, h⟩ := bind_ok.mp h
      obtain ⟨b, _, h⟩ := bind_ok.mp h
      obtain ⟨c, _, h⟩ := bind_ok.mp h
      cases ok_inj.mp h
      simp at e
    | cons p ds' =>
      simp only [List.all_cons, Bool.and_eq_true] at hp hp'
      unfold dimsDump at h h'
      obtain ⟨a, ha, h⟩ := bind_ok.mp h
      obtain ⟨b, hb, h⟩ := bind_ok.mp h
      obtain ⟨c, hc, h⟩ := bind_ok.mp h
      cases ok_inj.mp h
      obtain ⟨a', ha', h'⟩ := bind_ok.mp h'
      obtain ⟨b', hb', h'⟩ := bind_ok.mp h'
      obtain ⟨c', hc', h'⟩ := bind_ok.mp h'
      cases ok_inj.mp h'
      have e1 : a ++ (":".toList ++ b ++ "]".toList ++ c ++ ")".toList) = a' ++ (":".toList ++ b' ++ "]".toList ++ c' ++ ")".toList) := by
        simpa using e
      obtain ⟨r1, e2⟩ := dump_inj hp.1.1 hp'.1.1 ha ha' (by simp [NoDigit]) (by simp [NoDigit]) e1
      have e3 : b ++ ("]".toList ++ c ++ ")".toList) = b' ++ ("]".toList ++ c' ++ ")".toList) := by simpa using e2
      obtain ⟨r2, e4⟩ := dump_inj hp.1.2 hp'.1.2 hb hb' (by simp [NoDigit]) (by simp [NoDigit]) e3
      have e5 : c ++ ")".toList = c' ++ ")".toList := by simpa using e4
      have := ih (by simpa using hp.2) (by simpa using hp'.2) hc hc' e5
      simp [r1, r2, this]

/-- Everything the dump of a signal shows is plain. -/
def Term.plain (t : Term) : Bool :=
  plainChain t.name && !t.name.isEmpty && t.msb.plain && t.lsb.plain && plainDims t.dims

/-- **C87** Signals with the same dump have the same name (the types of its scopes apart), the same set of types and the same
range and dimensions. -/
theorem C87_signal_partial {t t' : Term} {s : Str} (hp : t.plain = true) (hp' : t'.plain = true) (h : t.tostr = .ok s)
    (h' : t'.tostr = .ok s) : noTypesChain t'.name = noTypesChain t.name ∧ (∀ y, y ∈ t'.types ↔ y ∈ t.types) ∧
      t'.msb.noTypes = t.msb.noTypes ∧ t'.lsb.noTypes = t.lsb.noTypes ∧ noTypesDims t'.dims = noTypesDims t.dims := by
  simp only [Term.plain, Bool.and_eq_true, Bool.not_eq_true', List.isEmpty_eq_false_iff] at hp hp'
  obtain ⟨⟨⟨⟨p1, p2⟩, p3⟩, p4⟩, p5⟩ := hp
  obtain ⟨⟨⟨⟨q1, q2⟩, q3⟩, q4⟩, q5⟩ := hp'
  unfold Term.tostr at h h'
  obtain ⟨m, hm, h⟩ := bind_ok.mp h
  obtain ⟨l, hl, h⟩ := bind_ok.mp h
  obtain ⟨d, hd, h⟩ := bind_ok.mp h
  obtain ⟨m', hm', h'⟩ := bind_ok.mp h'
  obtain ⟨l', hl', h'⟩ := bind_ok.mp h'
  obtain ⟨d', hd', h'⟩ := bind_ok.mp h'
  have e : t'.name.repr ++ (" type:".toList ++ typesDump t'.types ++ m' ++ l' ++ d' ++ ")".toList) =
      t.name.repr ++ (" type:".toList ++ typesDump t.types ++ m ++ l ++ d ++ ")".toList) := by
    have := (ok_inj.mp h').trans (ok_inj.mp h).symm
    simpa using this
  have ds : ∀ {x : Option (List (DF × DF))} {y : Str}, dimsField x = .ok y → y = [] ∨ ∃ z, y = " dims:".toList ++ z := by
    intro x y h
    cases x with
    | none => cases ok_inj.mp h; exact .inl rfl
    | some ps =>
      unfold dimsField at h
      obtain ⟨z, _, h⟩ := bind_ok.mp h
      cases ok_inj.mp h
      exact .inr ⟨z, rfl⟩
  obtain ⟨r1, e⟩ := name_inj q1 p1 q2 p2 (by simp) (by simp) e
  have e : typesDump t'.types ++ (m' ++ (l' ++ (d' ++ ")".toList))) = typesDump t.types ++ (m ++ (l ++ (d ++ ")".toList))) := by
    simpa using e
  obtain ⟨r2, e⟩ := typesDump_inj e
  obtain ⟨r3, e⟩ := field_inj (by simp) q3 p3 hm' hm
    (by rcases field_start hl' with rfl | ⟨y1, rfl⟩ <;> rcases ds hd' with rfl | ⟨y2, rfl⟩ <;> simp [NoDigit])
    (by rcases field_start hl with rfl | ⟨y1, rfl⟩ <;> rcases ds hd with rfl | ⟨y2, rfl⟩ <;> simp [NoDigit])
    (by rcases field_start hl' with rfl | ⟨y1, rfl⟩ <;> rcases ds hd' with rfl | ⟨y2, rfl⟩ <;> simp)
    (by rcases field_start hl with rfl | ⟨y1, rfl⟩ <;> rcases ds hd with rfl | ⟨y2, rfl⟩ <;> simp) e
  obtain ⟨r4, e⟩ := field_inj (by simp) q4 p4 hl' hl
    (by rcases ds hd' with rfl | ⟨y2, rfl⟩ <;> simp [NoDigit]) (by rcases ds hd with rfl | ⟨y2, rfl⟩ <;> simp [NoDigit])
    (by rcases ds hd' with rfl | ⟨y2, rfl⟩ <;> simp) (by rcases ds hd with rfl | ⟨y2, rfl⟩ <;> simp) e
  refine ⟨r1, r2, r3, r4, ?_⟩
  cases hx : t.dims with
  | none =>
    rw [hx] at hd
    cases ok_inj.mp hd
    cases hx' : t'.dims with
    | none => rfl
    | some ps =>
      rw [hx'] at hd'
      obtain ⟨z, _, hd'⟩ := bind_ok.mp hd'
      cases ok_inj.mp hd'
      simp at e
  | some ps =>
    rw [hx] at hd
    obtain ⟨z, hz, hd⟩ := bind_ok.mp hd
    cases ok_inj.mp hd
    cases hx' : t'.dims with
    | none =>
      rw [hx'] at hd'
      cases ok_inj.mp hd'
      simp at e
    | some ps' =>
      rw [hx'] at hd'
      obtain ⟨z', hz', hd'⟩ := bind_ok.mp hd'
      cases ok_inj.mp hd'
      rw [hx] at p5
      rw [hx'] at q5
      have e6 : z' ++ ")".toList = z ++ ")".toList := by simpa using e
      have := dims_inj q5 p5 hz' hz e6
      exact congrArg some this

/-! ### Counterexamples -/

/-- **C87** fails for string constants: `{"a","b"}` and a concatenation of one string have the same dump. -/
theorem C87_string_false :
    (DF.concat [.strc "a".toList, .strc "b".toList]).tostr = (DF.concat [.strc "a),(StringConst b".toList]).tostr := by
  decide +kernel

/-- **C87** fails for string values, which are printed as they are: every tree with a dump has the dump of a string. -/
theorem C87_string_value_false {t : DF} {s : Str} (h : t.tostr = .ok s) :
    (DF.ev (.str s) (some 32) false true).tostr = t.tostr := by rw [h]; rfl

/-- **C87** fails for the types of scopes: a function call `f` of `top` and an instance `f` of `top`. -/
theorem C87_scope_type_false :
    let a : ScopeChain := [⟨"top".toList, .module, none⟩, ⟨"f".toList, .functioncall, none⟩, ⟨"x".toList, .signal, none⟩]
    let b : ScopeChain := [⟨"top".toList, .module, none⟩, ⟨"f".toList, .module, none⟩, ⟨"x".toList, .signal, none⟩]
    a.pyEq b = false ∧ (DF.term a).tostr = (DF.term b).tostr := by decide +kernel

/-! ### Examples -/

/-- The tree of a counter with reset. -/
def c87t : DF := .branch (.term [⟨"top".toList, .module, none⟩, ⟨"rst".toList, .signal, none⟩]) (.evi (-1) (some 8))
  (.op .plus [.term [⟨"top".toList, .module, none⟩, ⟨"g".toList, .for_, some 3⟩, ⟨"c".toList, .signal, none⟩], .intc "8'd1".toList])

example : c87t.plain = true ∧ c87t.tostr = .ok
    ("(Branch Cond:(Terminal top.rst) True:(-8'd1) False:(Operator Plus Next:(Terminal top.g[3].c),(IntConst 8'd1)))".toList) := by
  decide +kernel

example : (⟨c87t, [⟨"top".toList, .module, none⟩, ⟨"c".toList, .signal, none⟩], .intc "7".toList, .intc "0".toList, .none, [], none⟩ : Bind).plain = true ∧
    (⟨.term [⟨"top".toList, .module, none⟩, ⟨"d".toList, .signal, none⟩], [⟨"top".toList, .module, none⟩, ⟨"c".toList, .signal, none⟩],
      .intc "7".toList, .intc "0".toList, .none, [], none⟩ : Bind).tostr =
    .ok "(Bind dest:top.c msb:(IntConst 7) lsb:(IntConst 0) tree:(Terminal top.d))".toList := by decide +kernel

example : (⟨[⟨"top".toList, .module, none⟩, ⟨"c".toList, .signal, none⟩], [.wire, .input], .intc "7".toList, .intc "0".toList,
      some [(.intc "3".toList, .intc "0".toList)]⟩ : Term).plain = true ∧
    (⟨[⟨"top".toList, .module, none⟩, ⟨"c".toList, .signal, none⟩], [.wire, .input], .intc "7".toList, .intc "0".toList,
      some [(.intc "3".toList, .intc "0".toList)]⟩ : Term).tostr =
    .ok "(Term name:top.c type:['Input', 'Wire'] msb:(IntConst 7) lsb:(IntConst 0) dims:[(IntConst 3):(IntConst 0)])".toList := by
  decide +kernel

end Pyv
