import Verif.Dump
import Verif.Props.StoresProps
import Verif.Props.ScopeProps
/-
  C87: the dump of a dataflow tree, of an assignment and of a signal determines it.
-/
namespace Pyv

/-! ### Specification -/

/-- A word without the characters that structure a dump. -/
def plainWord (s : Str) : Bool := s.all (fun c => !("()[].,:' ".toList.contains c))

/-- A name of plain words. -/
def plainChain (c : ScopeChain) : Bool := c.all (fun l => plainWord l.name)

mutual
/-- The names and the texts of the constants in a tree are plain, and its values are integers. -/
def DF.plain : DF → Bool
  | .none => true
  | .term n => plainChain n && !n.isEmpty
  | .intc s => !s.contains ')'
  | .fltc s => !s.contains ')'
  | .strc s => !s.contains ')'
  | .ev v _ isf iss => (match v with | .int _ => true | _ => false) && !isf && !iss
  | .undef _ => true
  | .hiz _ => true
  | .op _ ns => DF.plainList ns
  | .psel v m l => v.plain && m.plain && l.plain
  | .ptr v p => v.plain && p.plain
  | .concat ns => DF.plainList ns
  | .branch c t f => c.plain && t.plain && f.plain
  | .delay n => n.plain
  | .sys s ns => plainWord s && DF.plainList ns
/-- `DF.plain` for lists. -/
def DF.plainList : List DF → Bool
  | [] => true
  | n :: ns => n.plain && DF.plainList ns
end

/-- A name without the types of its scopes. -/
def noTypesChain (c : ScopeChain) : ScopeChain := c.map (fun l => ⟨l.name, .any, l.loop⟩)

mutual
/-- A tree without the types of the scopes in its names. -/
def DF.noTypes : DF → DF
  | .term n => .term (noTypesChain n)
  | .op o ns => .op o (DF.noTypesList ns)
  | .psel v m l => .psel v.noTypes m.noTypes l.noTypes
  | .ptr v p => .ptr v.noTypes p.noTypes
  | .concat ns => .concat (DF.noTypesList ns)
  | .branch c t f => .branch c.noTypes t.noTypes f.noTypes
  | .delay n => .delay n.noTypes
  | .sys s ns => .sys s (DF.noTypesList ns)
  | t => t
/-- `DF.noTypes` for lists. -/
def DF.noTypesList : List DF → List DF
  | [] => []
  | n :: ns => n.noTypes :: DF.noTypesList ns
end

/-! ### A reader of dumps (only used in the proofs) -/

theorem intStr_inj' {a b : Int} (h : intStr a = intStr b) : a = b := by
  have hd : ∀ n, '-' ∉ natStr n := fun n hc => by
    have := natStr_digits n _ hc
    exact absurd this (by decide)
  unfold intStr at h
  split at h <;> split at h
  · have := natStr_inj (List.cons.inj h).2; omega
  · exact absurd (h ▸ List.mem_cons_self) (hd _)
  · exact absurd (h ▸ List.mem_cons_self) (hd _)
  · have := natStr_inj h; omega

open Classical in
/-- The number a text shows. -/
noncomputable def rdNat (s : Str) : Nat := if h : ∃ n, natStr n = s then h.choose else 0

open Classical in
/-- The integer a text shows. -/
noncomputable def rdInt (s : Str) : Int := if h : ∃ n, intStr n = s then h.choose else 0

open Classical in
/-- The operator with a name. -/
noncomputable def rdOp (s : Str) : Op := if h : ∃ o : Op, o.pyName = s then h.choose else .plus

theorem rdNat_eq (n : Nat) : rdNat (natStr n) = n := by
  have h : ∃ m, natStr m = natStr n := ⟨n, rfl⟩
  rw [rdNat, dif_pos h]; exact natStr_inj h.choose_spec

theorem rdInt_eq (n : Int) : rdInt (intStr n) = n := by
  have h : ∃ m, intStr m = intStr n := ⟨n, rfl⟩
  rw [rdInt, dif_pos h]; exact intStr_inj' h.choose_spec

/-- The operators. -/
def allOps : List Op := [.uminus, .ulnot, .unot, .uand, .unand, .uor, .unor, .uxor, .uxnor, .power, .times, .divide, .mod,
  .plus, .minus, .sll, .srl, .sla, .sra, .lessThan, .greaterThan, .lessEq, .greaterEq, .eq, .notEq, .eql, .notEql, .and, .xor,
  .xnor, .or, .land, .lor]

theorem pyName_inj {a b : Op} (h : a.pyName = b.pyName) : a = b := by
  have hf : ∀ o : Op, allOps.find? (fun x => decide (x.pyName = o.pyName)) = some o := by
    intro o; cases o <;> decide +kernel
  have h1 := hf a
  rw [h, hf b] at h1
  exact (Option.some.inj h1).symm

theorem rdOp_eq (o : Op) : rdOp o.pyName = o := by
  have h : ∃ m : Op, m.pyName = o.pyName := ⟨o, rfl⟩
  rw [rdOp, dif_pos h]; exact pyName_inj h.choose_spec

/-- The width in front of a constant. -/
noncomputable def rdWidth (s : Str) : Option Int :=
  if s = [] then some 32 else if s = "None".toList then none else some (rdInt s)

/-- One label of a name. -/
noncomputable def rdLabel (s : Str) : ScopeLabel :=
  if s.dropWhile (· ≠ '[') = [] then ⟨s, .any, none⟩
  else ⟨s.takeWhile (· ≠ '['), .any, some (rdInt (s.dropWhile (· ≠ '[')).tail.dropLast)⟩

/-- A name. -/
noncomputable def rdName (s : Str) : ScopeChain := (splitOn '.' s).map rdLabel

/-- A constant without sign. -/
noncomputable def rdAtom (s : Str) : DF × Str :=
  let w := rdWidth (s.takeWhile (· ≠ '\''))
  let r := (s.dropWhile (· ≠ '\'')).drop 2
  if r.head? = some 'x' then (.undef w, r.tail)
  else if r.head? = some 'z' then (.hiz w, r.tail)
  else (.ev (.int (rdNat (r.takeWhile Char.isDigit))) w false false, r.dropWhile Char.isDigit)

/-- The operands; `rec` reads one. -/
def rdSeq (rec : Str → Option (DF × Str)) : Nat → Str → Option (List DF × Str)
  | 0, _ => none
  | k + 1, s =>
    match rec s with
    | none => none
    | some (t, r) =>
      if r.head? = some ',' then
        match rdSeq rec k r.tail with
        | none => none
        | some (ts, r') => some (t :: ts, r')
      else some ([t], r.tail)

/-- ` Next:` and the operands. -/
def rdNext (rec : Str → Option (DF × Str)) (k : Nat) (s : Str) : Option (List DF × Str) :=
  if (s.drop 5).head? = some ')' then some ([], (s.drop 5).tail) else rdSeq rec k (s.drop 6)

/-- A part that may be missing. -/
def rdOpt (rec : Str → Option (DF × Str)) (w : Str) (s : Str) : Option (DF × Str) :=
  if s.take w.length = w then rec (s.drop w.length) else some (.none, s)

/-- A tree. -/
noncomputable def rd : Nat → Str → Option (DF × Str)
  | 0, _ => none
  | k + 1, s =>
    if s.head? ≠ some '(' then some (rdAtom s)
    else if s.take 2 = "(T".toList then
      some (.term (rdName ((s.drop 10).takeWhile (· ≠ ')'))), ((s.drop 10).dropWhile (· ≠ ')')).tail)
    else if s.take 2 = "(I".toList then
      some (.intc ((s.drop 10).takeWhile (· ≠ ')')), ((s.drop 10).dropWhile (· ≠ ')')).tail)
    else if s.take 2 = "(F".toList then
      some (.fltc ((s.drop 12).takeWhile (· ≠ ')')), ((s.drop 12).dropWhile (· ≠ ')')).tail)
    else if s.take 3 = "(St".toList then
      some (.strc ((s.drop 13).takeWhile (· ≠ ')')), ((s.drop 13).dropWhile (· ≠ ')')).tail)
    else if s.take 2 = "(-".toList then
      match rdAtom (s.drop 2) with
      | (.ev (.int n) w a b, r) => some (.ev (.int (-n)) w a b, r.tail)
      | _ => none
    else if s.take 3 = "(Sy".toList then
      (rdNext (rd k) k ((s.drop 9).dropWhile (· ≠ ' '))).map (fun p => (.sys ((s.drop 9).takeWhile (· ≠ ' ')) p.1, p.2))
    else if s.take 2 = "(O".toList then
      (rdNext (rd k) k ((s.drop 10).dropWhile (· ≠ ' '))).map
        (fun p => (.op (rdOp ((s.drop 10).takeWhile (· ≠ ' '))) p.1, p.2))
    else if s.take 2 = "(C".toList then
      (rdNext (rd k) k (s.drop 7)).map (fun p => (.concat p.1, p.2))
    else if s.take 3 = "(Pa".toList then do
      let v ← rd k (s.drop 16)
      let m ← rd k (v.2.drop 5)
      let l ← rd k (m.2.drop 5)
      some (.psel v.1 m.1 l.1, l.2.tail)
    else if s.take 3 = "(Po".toList then do
      let v ← rd k (s.drop 13)
      let p ← rd k (v.2.drop 5)
      some (.ptr v.1 p.1, p.2.tail)
    else if s.take 2 = "(B".toList then do
      let c ← rdOpt (rd k) " Cond:".toList (s.drop 7)
      let t ← rdOpt (rd k) " True:".toList c.2
      let f ← rdOpt (rd k) " False:".toList t.2
      some (.branch c.1 t.1 f.1, f.2.tail)
    else if (s.drop 7).head? = some ')' then some (.delay .none, (s.drop 7).tail)
    else do
      let n ← rd k (s.drop 7)
      some (.delay n.1, n.2.tail)

/-! ### The reader reads dumps -/

theorem tw_dw {p : Char → Bool} {a r : Str} (ha : ∀ c ∈ a, p c = true) (hr : ∀ c ∈ r.head?, p c = false) :
    (a ++ r).takeWhile p = a ∧ (a ++ r).dropWhile p = r := by
  induction a with
  | nil =>
    cases r with
    | nil => simp
    | cons c r => simp [List.takeWhile, List.dropWhile, hr c (by simp)]
  | cons c a ih =>
    have := ih (fun x hx => ha x (by simp [hx]))
    simp [List.takeWhile, List.dropWhile, ha c (by simp), this]

theorem plainWord_not {s : Str} (h : plainWord s = true) {c : Char} (hc : c ∈ "()[].,:' ".toList) : c ∉ s := by
  intro hm
  have := List.all_eq_true.mp h c hm
  simp only [Bool.not_eq_true', List.contains_iff_mem, ← Bool.not_eq_true] at this
  exact this hc

theorem widthStr_ne (w : Option Int) : ∀ c ∈ widthStr w, c ≠ '\'' ∧ c ≠ '(' := by
  intro c hc
  unfold widthStr at hc
  split at hc
  · simp at hc
  · rename_i n
    unfold intStr at hc
    have hd : ∀ m, c ∈ natStr m → c ≠ '\'' ∧ c ≠ '(' := by
      intro m hm
      have := natStr_digits m c hm
      constructor <;> (rintro rfl; exact absurd this (by decide))
    split at hc
    · rcases List.mem_cons.mp hc with rfl | h
      · decide
      · exact hd _ h
    · exact hd _ hc
  · simp at hc
    rcases hc with rfl | rfl | rfl | rfl <;> decide

theorem natStr_ne_nil (n : Nat) : natStr n ≠ [] := by
  intro h
  have := Nat.length_toDigits_pos (b := 10) (n := n)
  rw [natStr] at h
  simp [h] at this

theorem rdWidth_eq (w : Option Int) : rdWidth (widthStr w) = w := by
  unfold widthStr
  split
  · simp [rdWidth]
  · rename_i n hn
    have h1 : intStr n ≠ [] := by
      unfold intStr; split
      · simp
      · exact natStr_ne_nil _
    have h2 : intStr n ≠ "None".toList := by
      intro h
      unfold intStr at h
      split at h
      · exact absurd (List.cons.inj h).1 (by decide)
      · have : 'N' ∈ natStr n.natAbs := by rw [h]; decide
        exact absurd (natStr_digits _ _ this) (by decide)
    simp only [rdWidth, if_neg h1, if_neg h2, rdInt_eq]
  · simp [rdWidth]

/-- What may follow a constant. -/
def NoDigit (r : Str) : Prop := ∀ c ∈ r.head?, c.isDigit = false

theorem rdAtom_num (w : Option Int) (n : Nat) {r : Str} (hr : NoDigit r) :
    rdAtom (widthStr w ++ "'d".toList ++ natStr n ++ r) = (.ev (.int n) w false false, r) := by
  have h1 := tw_dw (p := (· ≠ '\'')) (a := widthStr w) (r := "'d".toList ++ natStr n ++ r)
    (fun c hc => by simp [(widthStr_ne w c hc).1]) (by simp)
  have h2 := tw_dw (p := Char.isDigit) (a := natStr n) (r := r) (natStr_digits n) hr
  have h3 : ∀ c, c.isDigit = false → (natStr n ++ r).head? ≠ some c := by
    intro c hc h
    cases hx : natStr n with
    | nil => exact natStr_ne_nil n hx
    | cons d ds =>
      rw [hx] at h
      simp at h
      have := natStr_digits n d (by simp [hx])
      rw [h, hc] at this
      cases this
  have e : widthStr w ++ "'d".toList ++ natStr n ++ r = widthStr w ++ ("'d".toList ++ natStr n ++ r) := by simp
  rw [e, rdAtom, h1.1, h1.2]
  have e2 : ("'d".toList ++ natStr n ++ r).drop 2 = natStr n ++ r := by simp
  simp only [e2, if_neg (h3 'x' (by decide)), if_neg (h3 'z' (by decide)), h2.1, h2.2, rdWidth_eq, rdNat_eq]

theorem rdAtom_undef (w : Option Int) {r : Str} :
    rdAtom (widthStr w ++ "'d".toList ++ "x".toList ++ r) = (.undef w, r) := by
  have h1 := tw_dw (p := (· ≠ '\'')) (a := widthStr w) (r := "'d".toList ++ "x".toList ++ r)
    (fun c hc => by simp [(widthStr_ne w c hc).1]) (by simp)
  have e : widthStr w ++ "'d".toList ++ "x".toList ++ r = widthStr w ++ ("'d".toList ++ "x".toList ++ r) := by simp
  rw [e, rdAtom, h1.1, h1.2]
  simp [rdWidth_eq]

theorem rdAtom_hiz (w : Option Int) {r : Str} :
    rdAtom (widthStr w ++ "'d".toList ++ "z".toList ++ r) = (.hiz w, r) := by
  have h1 := tw_dw (p := (· ≠ '\'')) (a := widthStr w) (r := "'d".toList ++ "z".toList ++ r)
    (fun c hc => by simp [(widthStr_ne w c hc).1]) (by simp)
  have e : widthStr w ++ "'d".toList ++ "z".toList ++ r = widthStr w ++ ("'d".toList ++ "z".toList ++ r) := by simp
  rw [e, rdAtom, h1.1, h1.2]
  simp [rdWidth_eq]

theorem intStr_chars (n : Int) : ∀ c ∈ intStr n, c = '-' ∨ c.isDigit = true := by
  intro c hc
  unfold intStr at hc
  split at hc
  · rcases List.mem_cons.mp hc with rfl | h
    · exact .inl rfl
    · exact .inr (natStr_digits _ _ h)
  · exact .inr (natStr_digits _ _ hc)

theorem rdLabel_repr {l : ScopeLabel} (h : plainWord l.name = true) : rdLabel l.repr = ⟨l.name, .any, l.loop⟩ := by
  have hb : ∀ c ∈ l.name, (decide (c ≠ '[')) = true := by
    intro c hc
    simp only [decide_eq_true_eq]
    rintro rfl
    exact plainWord_not h (by decide) hc
  cases hl : l.loop with
  | none =>
    have e : l.repr = l.name := by simp [ScopeLabel.repr, hl]
    have := tw_dw (p := (· ≠ '[')) (a := l.name) (r := []) hb (by simp)
    simp only [List.append_nil] at this
    rw [e, rdLabel, this.2, if_pos rfl]
  | some n =>
    have e : l.repr = l.name ++ ('[' :: intStr n ++ [']']) := by simp [ScopeLabel.repr, hl]
    have := tw_dw (p := (· ≠ '[')) (a := l.name) (r := '[' :: intStr n ++ [']']) hb (by simp)
    rw [e, rdLabel, this.2, if_neg (by simp), this.1]
    simp [rdInt_eq, List.dropLast_concat]

theorem repr_not {l : ScopeLabel} (h : plainWord l.name = true) {c : Char} (hc : c ∈ "(). ,:'".toList) : c ∉ l.repr := by
  have h1 : c ∉ l.name := plainWord_not h (by revert hc; simp; rintro (rfl | rfl | rfl | rfl | rfl | rfl | rfl) <;> simp)
  have h2 : ∀ n, c ∉ intStr n := by
    intro n hm
    rcases intStr_chars n c hm with rfl | h
    · revert hc; decide
    · have hc' : c = '(' ∨ c = ')' ∨ c = '.' ∨ c = ' ' ∨ c = ',' ∨ c = ':' ∨ c = '\'' := by simpa using hc
      rcases hc' with rfl | rfl | rfl | rfl | rfl | rfl | rfl <;> exact absurd h (by decide)
  have h3 : c ≠ '[' ∧ c ≠ ']' := by
    revert hc; simp; rintro (rfl | rfl | rfl | rfl | rfl | rfl | rfl) <;> decide
  unfold ScopeLabel.repr
  split
  · exact h1
  · simp [h1, h2, h3]

theorem dotJoin_not {ws : List Str} {c : Char} (hc : c ≠ '.') (h : ∀ w ∈ ws, c ∉ w) : c ∉ dotJoin ws := by
  induction ws with
  | nil => simp [dotJoin]
  | cons w ws ih =>
    cases ws with
    | nil => simpa [dotJoin] using h w (by simp)
    | cons v vs =>
      simp only [dotJoin, List.mem_append, List.mem_cons, not_or]
      exact ⟨h w (by simp), hc, ih (fun x hx => h x (by simp [hx]))⟩

theorem chain_not {n : ScopeChain} (h : plainChain n = true) {c : Char} (hc : c ∈ "() ,:'".toList) : c ∉ n.repr := by
  refine dotJoin_not (by rintro rfl; revert hc; decide) ?_
  intro w hw
  obtain ⟨l, hl, rfl⟩ := List.mem_map.mp hw
  exact repr_not (List.all_eq_true.mp h l hl) (by revert hc; simp; rintro (rfl | rfl | rfl | rfl | rfl | rfl) <;> simp)

theorem rdName_repr {n : ScopeChain} (h : plainChain n = true) (hne : n ≠ []) : rdName n.repr = noTypesChain n := by
  rw [rdName, ScopeChain.repr, splitOn_dotJoin _ (by simpa using hne)]
  · simp only [noTypesChain, List.map_map]
    refine List.map_congr_left ?_
    intro l hl
    exact rdLabel_repr (List.all_eq_true.mp h l hl)
  · intro w hw
    obtain ⟨l, hl, rfl⟩ := List.mem_map.mp hw
    exact repr_not (List.all_eq_true.mp h l hl) (by decide)

theorem flat_dots (n : ScopeChain) (pre : Str) :
    (pre ++ (n.map (fun l => l.repr ++ ".".toList)).flatten).dropLast = if n = [] then pre.dropLast else pre ++ n.repr := by
  induction n generalizing pre with
  | nil => simp
  | cons l n ih =>
    have e : pre ++ ((l :: n).map (fun l => l.repr ++ ".".toList)).flatten =
        (pre ++ l.repr ++ ".".toList) ++ (n.map (fun l => l.repr ++ ".".toList)).flatten := by simp
    rw [e, ih]
    cases n with
    | nil => simp [ScopeChain.repr, dotJoin, ← List.append_assoc, List.dropLast_concat]
    | cons x xs => simp [ScopeChain.repr, dotJoin]

/-- The operands with commas between them. -/
def commaJoin : List Str → Str
  | [] => []
  | [w] => w
  | w :: ws => w ++ ',' :: commaJoin ws

theorem flat_commas (cs : List Str) (pre : Str) :
    (pre ++ (cs.map (· ++ ",".toList)).flatten).dropLast = if cs = [] then pre.dropLast else pre ++ commaJoin cs := by
  induction cs generalizing pre with
  | nil => simp
  | cons l n ih =>
    have e : pre ++ ((l :: n).map (· ++ ",".toList)).flatten =
        (pre ++ l ++ ",".toList) ++ (n.map (· ++ ",".toList)).flatten := by simp
    rw [e, ih]
    cases n with
    | nil => simp [commaJoin, ← List.append_assoc, List.dropLast_concat]
    | cons x xs => simp [commaJoin]

theorem tostrList_ok {ns : List DF} {cs : List Str} (h : DF.tostrList ns = .ok cs) :
    List.Forall₂ (fun n c => DF.tostr n = .ok c) ns cs := by
  induction ns generalizing cs with
  | nil => simp only [DF.tostrList] at h; cases ok_inj.mp h; exact .nil
  | cons n ns ih =>
    simp only [DF.tostrList] at h
    obtain ⟨c, h1, h⟩ := bind_ok.mp h
    obtain ⟨cs', h2, h⟩ := bind_ok.mp h
    cases ok_inj.mp h
    exact .cons h1 (ih h2)

theorem plainList_mem {ns : List DF} (h : DF.plainList ns = true) : ∀ n ∈ ns, n.plain = true := by
  induction ns with
  | nil => simp
  | cons n ns ih =>
    simp only [DF.plainList, Bool.and_eq_true] at h
    intro m hm
    rcases List.mem_cons.mp hm with rfl | hm
    · exact h.1
    · exact ih h.2 m hm

theorem noTypesList_eq (ns : List DF) : DF.noTypesList ns = ns.map DF.noTypes := by
  induction ns with
  | nil => rfl
  | cons n ns ih => simp [DF.noTypesList, ih]

/-- The text is read as the tree by every reader that may go deep enough. -/
def ReadAs (t : DF) (s : Str) : Prop := ∃ k0, ∀ k, k0 ≤ k → ∀ r, NoDigit r → rd k (s ++ r) = some (t.noTypes, r)

theorem rdSeq_reads {ns : List DF} {cs : List Str} (h : List.Forall₂ ReadAs ns cs) (hne : ns ≠ []) :
    ∃ k0, ∀ k, k0 ≤ k → ∀ j, ns.length ≤ j → ∀ r, rdSeq (rd k) j (commaJoin cs ++ ")".toList ++ r) = some (DF.noTypesList ns, r) := by
  induction h with
  | nil => exact absurd rfl hne
  | @cons n c ns cs h1 h2 ih =>
    obtain ⟨k1, hk1⟩ := h1
    cases ns with
    | nil =>
      cases h2
      refine ⟨k1, fun k hk j hj r => ?_⟩
      cases j with
      | zero => simp at hj
      | succ j =>
        rw [rdSeq, commaJoin, List.append_assoc, hk1 k hk _ (by simp [NoDigit])]
        simp [DF.noTypesList]
    | cons m ms =>
      obtain ⟨k2, hk2⟩ := ih (by simp)
      cases cs with
      | nil => cases h2
      | cons d ds =>
        refine ⟨max k1 k2, fun k hk j hj r => ?_⟩
        cases j with
        | zero => simp at hj
        | succ j =>
          have e : commaJoin (c :: d :: ds) ++ ")".toList ++ r = c ++ (',' :: (commaJoin (d :: ds) ++ ")".toList ++ r)) := by
            simp [commaJoin]
          rw [rdSeq, e, hk1 k (by omega) _ (by simp [NoDigit])]
          have := hk2 k (by omega) j (by simpa using hj) r
          simp only [List.head?_cons, List.tail_cons, if_true, this]
          simp [DF.noTypesList]

/-- What follows the name of an operator. -/
def nextText (cs : List Str) : Str := if cs = [] then " Next)".toList else " Next:".toList ++ commaJoin cs ++ ")".toList

theorem tostr_start {t : DF} {s : Str} (h : DF.tostr t = .ok s) (hp : t.plain = true) : s ≠ [] ∧ s.head? ≠ some ')' := by
  have hw : ∀ (w : Option Int) (x : Str), widthStr w ++ "'d".toList ++ x ≠ [] ∧ (widthStr w ++ "'d".toList ++ x).head? ≠ some ')' := by
    intro w x
    refine ⟨by simp, ?_⟩
    unfold widthStr
    split
    · simp
    · rename_i n _
      intro hh
      have hm : ')' ∈ intStr n ∨ intStr n = [] := by
        cases hx : intStr n with
        | nil => exact .inr rfl
        | cons a as => rw [hx] at hh; simp at hh; subst hh; exact .inl (by simp)
      rcases hm with hm | hm
      · rcases intStr_chars n _ hm with h | h <;> exact absurd h (by decide)
      · rw [hm] at hh; simp at hh
    · simp
  cases t with
  | none => cases h
  | term n =>
    simp only [DF.tostr, flat_dots] at h
    cases ok_inj.mp h
    split <;> simp
  | intc x => cases ok_inj.mp h; simp
  | fltc x => cases ok_inj.mp h; simp
  | strc x => cases ok_inj.mp h; simp
  | ev v w a b =>
    simp only [DF.plain, Bool.and_eq_true, Bool.not_eq_true'] at hp
    obtain ⟨⟨hv, rfl⟩, rfl⟩ := hp
    cases v with
    | int n =>
      simp only [DF.tostr] at h
      cases ok_inj.mp h
      split
      · simp
      · simpa using hw w (natStr n.natAbs)
    | _ => simp at hv
  | undef w => cases ok_inj.mp h; exact hw w _
  | hiz w => cases ok_inj.mp h; exact hw w _
  | op o ns =>
    simp only [DF.tostr] at h
    obtain ⟨cs, _, h⟩ := bind_ok.mp h
    simp only [flat_commas] at h
    cases ok_inj.mp h
    split <;> simp [List.dropLast]
  | psel v m l =>
    simp only [DF.tostr] at h
    obtain ⟨a, _, h⟩ := bind_ok.mp h
    obtain ⟨b, _, h⟩ := bind_ok.mp h
    obtain ⟨c, _, h⟩ := bind_ok.mp h
    cases ok_inj.mp h; simp
  | ptr v m =>
    simp only [DF.tostr] at h
    obtain ⟨a, _, h⟩ := bind_ok.mp h
    obtain ⟨b, _, h⟩ := bind_ok.mp h
    cases ok_inj.mp h; simp
  | concat ns =>
    simp only [DF.tostr] at h
    obtain ⟨cs, _, h⟩ := bind_ok.mp h
    simp only [flat_commas] at h
    cases ok_inj.mp h
    split <;> simp
  | branch v m l =>
    simp only [DF.tostr] at h
    obtain ⟨a, _, h⟩ := bind_ok.mp h
    obtain ⟨b, _, h⟩ := bind_ok.mp h
    obtain ⟨c, _, h⟩ := bind_ok.mp h
    cases ok_inj.mp h; simp
  | delay n =>
    simp only [DF.tostr] at h
    obtain ⟨a, _, h⟩ := bind_ok.mp h
    cases ok_inj.mp h; simp
  | sys o ns =>
    simp only [DF.tostr] at h
    obtain ⟨cs, _, h⟩ := bind_ok.mp h
    simp only [flat_commas] at h
    cases ok_inj.mp h
    split <;> simp [List.dropLast]

theorem rdNext_reads {ns : List DF} {cs : List Str} (ht : List.Forall₂ (fun n c => DF.tostr n = .ok c) ns cs)
    (h : List.Forall₂ ReadAs ns cs) :
    ∃ k0, ∀ k, k0 ≤ k → ∀ r, rdNext (rd k) k (nextText cs ++ r) = some (DF.noTypesList ns, r) := by
  cases h with
  | nil => exact ⟨0, fun k _ r => by simp [rdNext, nextText, DF.noTypesList]⟩
  | @cons n c ns cs h1 h2 =>
    obtain ⟨k0, hk⟩ := rdSeq_reads (.cons h1 h2) (by simp)
    refine ⟨max k0 (ns.length + 1), fun k hk' r => ?_⟩
    have e : nextText (c :: cs) ++ r = " Next:".toList ++ (commaJoin (c :: cs) ++ ")".toList ++ r) := by simp [nextText]
    rw [e, rdNext, if_neg (by simp)]
    have e2 : List.drop 6 (" Next:".toList ++ (commaJoin (c :: cs) ++ ")".toList ++ r)) = commaJoin (c :: cs) ++ ")".toList ++ r := by
      simp
    rw [e2]
    exact hk k (by omega) k (by simp; omega) r

/-- The last steps of a read: the operands of an operator, a concatenation or a call. -/
theorem dumpReads_list {ns : List DF} {cs : List Str} (hp : DF.plainList ns = true) (h : DF.tostrList ns = .ok cs)
    (ih : ∀ n ∈ ns, ∀ s, n.plain = true → n.tostr = .ok s → ReadAs n s) :
    ∃ k0, ∀ k, k0 ≤ k → ∀ r, rdNext (rd k) k (nextText cs ++ r) = some (DF.noTypesList ns, r) := by
  have ht := tostrList_ok h
  refine rdNext_reads ht ?_
  have hpl := plainList_mem hp
  clear h hp
  induction ht with
  | nil => exact .nil
  | cons h1 _ ih2 =>
    refine .cons (ih _ (by simp) _ (hpl _ (by simp)) h1) (ih2 ?_ ?_)
    · exact fun n hn => ih n (by simp [hn])
    · exact fun n hn => hpl n (by simp [hn])

theorem noTypes_none {t : DF} : t.noTypes = .none ↔ t = .none := by cases t <;> simp [DF.noTypes]

/-- A part that may be missing is read. -/
theorem dumpReads_opt {t : DF} {w s : Str} (hw : w ≠ []) (hp : t.plain = true) (h : dumpPart w t t.tostr = .ok s)
    (ih : ∀ s, t.plain = true → t.tostr = .ok s → ReadAs t s) :
    ∃ k0, ∀ k, k0 ≤ k → ∀ r, NoDigit r → r.take w.length ≠ w → rdOpt (rd k) w (s ++ r) = some (t.noTypes, r) := by
  unfold dumpPart at h
  split at h
  · rename_i hn
    cases ok_inj.mp h
    subst hn
    exact ⟨0, fun k _ r _ hr => by simp [rdOpt, hr, DF.noTypes]⟩
  · obtain ⟨x, hx, h⟩ := bind_ok.mp h
    cases ok_inj.mp h
    obtain ⟨k0, hk⟩ := ih x hp hx
    refine ⟨k0, fun k hk' r hr _ => ?_⟩
    have := hk k hk' r hr
    simp [rdOpt, List.append_assoc, this]

theorem op_text (o : Op) : ∀ c ∈ o.pyName, c ≠ ' ' := by cases o <;> decide +kernel

theorem list_text (pre : Str) (cs : List Str) :
    (pre ++ " Next:".toList ++ (cs.map (· ++ ",".toList)).flatten).dropLast ++ ")".toList = pre ++ nextText cs := by
  rw [flat_commas]
  unfold nextText
  split
  · have : pre ++ " Next:".toList = (pre ++ " Next".toList) ++ [':'] := by simp
    rw [this, List.dropLast_concat]; simp
  · simp

theorem nextText_head (cs : List Str) (r : Str) : (nextText cs ++ r).head? = some ' ' := by
  unfold nextText; split <;> simp

/-- A plain tree is read from its dump. -/
theorem dump_reads (t : DF) : ∀ s, t.plain = true → t.tostr = .ok s → ReadAs t s := by
  induction t using DF.ind with
  | none => intro s _ h; cases h
  | term n =>
    intro s hp h
    simp only [DF.plain, Bool.and_eq_true, Bool.not_eq_true', List.isEmpty_eq_false_iff] at hp
    simp only [DF.tostr, flat_dots, if_neg hp.2] at h
    cases ok_inj.mp h
    refine ⟨1, fun k hk r _ => ?_⟩
    obtain ⟨k, rfl⟩ : ∃ j, k = j + 1 := ⟨k - 1, by omega⟩
    have := tw_dw (p := (· ≠ ')')) (a := n.repr) (r := ")".toList ++ r)
      (fun c hc => by simp only [decide_eq_true_eq]; rintro rfl; exact chain_not hp.1 (by decide) hc) (by simp)
    have e : List.drop 10 ("(Terminal ".toList ++ n.repr ++ ")".toList ++ r) = n.repr ++ (")".toList ++ r) := by simp
    rw [rd, if_neg (by simp), if_pos (by simp), e, this.1, this.2, rdName_repr hp.1 hp.2]
    simp [DF.noTypes]
  | intc x =>
    intro s hp h
    simp only [DF.plain, Bool.not_eq_true', List.contains_eq_mem, decide_eq_false_iff_not] at hp
    cases ok_inj.mp h
    refine ⟨1, fun k hk r _ => ?_⟩
    obtain ⟨k, rfl⟩ : ∃ j, k = j + 1 := ⟨k - 1, by omega⟩
    have := tw_dw (p := (· ≠ ')')) (a := x) (r := ")".toList ++ r)
      (fun c hc => by simp only [decide_eq_true_eq]; rintro rfl; exact hp hc) (by simp)
    have e : List.drop 10 ("(IntConst ".toList ++ x ++ ")".toList ++ r) = x ++ (")".toList ++ r) := by simp
    rw [rd, if_neg (by simp), if_neg (by simp), if_pos (by simp), e, this.1, this.2]
    simp [DF.noTypes]
  | fltc x =>
    intro s hp h
    simp only [DF.plain, Bool.not_eq_true', List.contains_eq_mem, decide_eq_false_iff_not] at hp
    cases ok_inj.mp h
    refine ⟨1, fun k hk r _ => ?_⟩
    obtain ⟨k, rfl⟩ : ∃ j, k = j + 1 := ⟨k - 1, by omega⟩
    have := tw_dw (p := (· ≠ ')')) (a := x) (r := ")".toList ++ r)
      (fun c hc => by simp only [decide_eq_true_eq]; rintro rfl; exact hp hc) (by simp)
    have e : List.drop 12 ("(FloatConst ".toList ++ x ++ ")".toList ++ r) = x ++ (")".toList ++ r) := by simp
    rw [rd, if_neg (by simp), if_neg (by simp), if_neg (by simp), if_pos (by simp), e, this.1, this.2]
    simp [DF.noTypes]
  | strc x =>
    intro s hp h
    simp only [DF.plain, Bool.not_eq_true', List.contains_eq_mem, decide_eq_false_iff_not] at hp
    cases ok_inj.mp h
    refine ⟨1, fun k hk r _ => ?_⟩
    obtain ⟨k, rfl⟩ : ∃ j, k = j + 1 := ⟨k - 1, by omega⟩
    have := tw_dw (p := (· ≠ ')')) (a := x) (r := ")".toList ++ r)
      (fun c hc => by simp only [decide_eq_true_eq]; rintro rfl; exact hp hc) (by simp)
    have e : List.drop 13 ("(StringConst ".toList ++ x ++ ")".toList ++ r) = x ++ (")".toList ++ r) := by simp
    rw [rd, if_neg (by simp), if_neg (by simp), if_neg (by simp), if_neg (by simp), if_pos (by simp), e, this.1, this.2]
    simp [DF.noTypes]
  | ev v w a b =>
    intro s hp h
    simp only [DF.plain, Bool.and_eq_true, Bool.not_eq_true'] at hp
    obtain ⟨⟨hv, rfl⟩, rfl⟩ := hp
    cases v with
    | int n =>
      simp only [DF.tostr] at h
      cases ok_inj.mp h
      refine ⟨1, fun k hk r hr => ?_⟩
      obtain ⟨k, rfl⟩ : ∃ j, k = j + 1 := ⟨k - 1, by omega⟩
      by_cases hn : n < 0
      · have e : List.drop 2 ("(-".toList ++ widthStr w ++ "'d".toList ++ natStr n.natAbs ++ ")".toList ++ r) =
            widthStr w ++ "'d".toList ++ natStr n.natAbs ++ (")".toList ++ r) := by simp
        simp only [hn, if_true]
        rw [rd, if_neg (by simp), if_neg (by simp), if_neg (by simp), if_neg (by simp), if_neg (by simp), if_pos (by simp), e,
          rdAtom_num w _ (by simp [NoDigit])]
        have : -(n.natAbs : Int) = n := by omega
        simp only [this]
        simp [DF.noTypes]
      · simp only [hn, if_false, List.nil_append, List.append_nil]
        have hh : (widthStr w ++ "'d".toList ++ natStr n.natAbs ++ r).head? ≠ some '(' := by
          intro hh
          cases hx : widthStr w with
          | nil => rw [hx] at hh; simp at hh
          | cons c cs =>
            rw [hx] at hh; simp at hh
            exact (widthStr_ne w c (by simp [hx])).2 hh
        rw [rd, if_pos hh, rdAtom_num w _ hr]
        have : (n.natAbs : Int) = n := by omega
        simp [DF.noTypes, this]
    | _ => simp at hv
  | undef w =>
    intro s hp h
    cases ok_inj.mp h
    refine ⟨1, fun k hk r hr => ?_⟩
    obtain ⟨k, rfl⟩ : ∃ j, k = j + 1 := ⟨k - 1, by omega⟩
    have hh : (widthStr w ++ "'d".toList ++ "x".toList ++ r).head? ≠ some '(' := by
      intro hh
      cases hx : widthStr w with
      | nil => rw [hx] at hh; simp at hh
      | cons c cs =>
        rw [hx] at hh; simp at hh
        exact (widthStr_ne w c (by simp [hx])).2 hh
    rw [rd, if_pos hh, rdAtom_undef w]; rfl
  | hiz w =>
    intro s hp h
    cases ok_inj.mp h
    refine ⟨1, fun k hk r hr => ?_⟩
    obtain ⟨k, rfl⟩ : ∃ j, k = j + 1 := ⟨k - 1, by omega⟩
    have hh : (widthStr w ++ "'d".toList ++ "z".toList ++ r).head? ≠ some '(' := by
      intro hh
      cases hx : widthStr w with
      | nil => rw [hx] at hh; simp at hh
      | cons c cs =>
        rw [hx] at hh; simp at hh
        exact (widthStr_ne w c (by simp [hx])).2 hh
    rw [rd, if_pos hh, rdAtom_hiz w]; rfl
  | op o ns ih =>
    intro s hp h
    simp only [DF.tostr] at h
    obtain ⟨cs, h1, h⟩ := bind_ok.mp h
    rw [list_text] at h
    cases ok_inj.mp h
    obtain ⟨k0, hk0⟩ := dumpReads_list hp h1 ih
    refine ⟨k0 + 1, fun k hk r hr => ?_⟩
    obtain ⟨k, rfl⟩ : ∃ j, k = j + 1 := ⟨k - 1, by omega⟩
    have := tw_dw (p := (· ≠ ' ')) (a := o.pyName) (r := nextText cs ++ r)
      (fun c hc => by simpa using op_text o c hc) (by rw [nextText_head]; simp)
    have e : List.drop 10 ("(Operator ".toList ++ o.pyName ++ nextText cs ++ r) = o.pyName ++ (nextText cs ++ r) := by simp
    rw [rd, if_neg (by simp), if_neg (by simp), if_neg (by simp), if_neg (by simp), if_neg (by simp), if_neg (by simp),
      if_neg (by simp), if_pos (by simp), e, this.1, this.2, hk0 k (by omega) r]
    simp [DF.noTypes, rdOp_eq]
  | concat ns ih =>
    intro s hp h
    simp only [DF.tostr] at h
    obtain ⟨cs, h1, h⟩ := bind_ok.mp h
    rw [list_text] at h
    cases ok_inj.mp h
    obtain ⟨k0, hk0⟩ := dumpReads_list hp h1 ih
    refine ⟨k0 + 1, fun k hk r hr => ?_⟩
    obtain ⟨k, rfl⟩ : ∃ j, k = j + 1 := ⟨k - 1, by omega⟩
    have e : List.drop 7 ("(Concat".toList ++ nextText cs ++ r) = nextText cs ++ r := by simp
    rw [rd, if_neg (by simp), if_neg (by simp), if_neg (by simp), if_neg (by simp), if_neg (by simp), if_neg (by simp),
      if_neg (by simp), if_neg (by simp), if_pos (by simp), e, hk0 k (by omega) r]
    simp [DF.noTypes]
  | sys o ns ih =>
    intro s hp h
    simp only [DF.plain, Bool.and_eq_true] at hp
    simp only [DF.tostr] at h
    obtain ⟨cs, h1, h⟩ := bind_ok.mp h
    rw [list_text] at h
    cases ok_inj.mp h
    obtain ⟨k0, hk0⟩ := dumpReads_list hp.2 h1 ih
    refine ⟨k0 + 1, fun k hk r hr => ?_⟩
    obtain ⟨k, rfl⟩ : ∃ j, k = j + 1 := ⟨k - 1, by omega⟩
    have := tw_dw (p := (· ≠ ' ')) (a := o) (r := nextText cs ++ r)
      (fun c hc => by simp only [decide_eq_true_eq]; rintro rfl; exact plainWord_not hp.1 (by decide) hc) (by rw [nextText_head]; simp)
    have e : List.drop 9 ("(Syscall ".toList ++ o ++ nextText cs ++ r) = o ++ (nextText cs ++ r) := by simp
    rw [rd, if_neg (by simp), if_neg (by simp), if_neg (by simp), if_neg (by simp), if_neg (by simp), if_neg (by simp),
      if_pos (by simp), e, this.1, this.2, hk0 k (by omega) r]
    simp [DF.noTypes]
  | psel v m l h1 h2 h3 =>
    intro s hp h
    simp only [DF.plain, Bool.and_eq_true] at hp
    simp only [DF.tostr] at h
    obtain ⟨a, ha, h⟩ := bind_ok.mp h
    obtain ⟨b, hb, h⟩ := bind_ok.mp h
    obtain ⟨c, hc, h⟩ := bind_ok.mp h
    cases ok_inj.mp h
    obtain ⟨ka, hka⟩ := h1 a hp.1.1 ha
    obtain ⟨kb, hkb⟩ := h2 b hp.1.2 hb
    obtain ⟨kc, hkc⟩ := h3 c hp.2 hc
    refine ⟨max ka (max kb kc) + 1, fun k hk r hr => ?_⟩
    obtain ⟨k, rfl⟩ : ∃ j, k = j + 1 := ⟨k - 1, by omega⟩
    have e : List.drop 16 ("(Partselect".toList ++ " Var:".toList ++ a ++ " MSB:".toList ++ b ++ " LSB:".toList ++ c ++ ")".toList ++ r) =
      a ++ (" MSB:".toList ++ b ++ " LSB:".toList ++ c ++ ")".toList ++ r) := by simp
    have e2 : List.drop 5 (" MSB:".toList ++ b ++ " LSB:".toList ++ c ++ ")".toList ++ r) =
      b ++ (" LSB:".toList ++ c ++ ")".toList ++ r) := by simp
    have e3 : List.drop 5 (" LSB:".toList ++ c ++ ")".toList ++ r) = c ++ (")".toList ++ r) := by simp
    rw [rd, if_neg (by simp), if_neg (by simp), if_neg (by simp), if_neg (by simp), if_neg (by simp), if_neg (by simp),
      if_neg (by simp), if_neg (by simp), if_neg (by simp), if_pos (by simp), e, hka k (by omega) _ (by simp [NoDigit])]
    simp only [Option.bind_eq_bind, Option.bind_some, e2, hkb k (by omega) _ (show NoDigit (" LSB:".toList ++ c ++ ")".toList ++ r) by simp [NoDigit]), e3,
      hkc k (by omega) _ (show NoDigit (")".toList ++ r) by simp [NoDigit])]
    simp [DF.noTypes]
  | ptr v m h1 h2 =>
    intro s hp h
    simp only [DF.plain, Bool.and_eq_true] at hp
    simp only [DF.tostr] at h
    obtain ⟨a, ha, h⟩ := bind_ok.mp h
    obtain ⟨b, hb, h⟩ := bind_ok.mp h
    cases ok_inj.mp h
    obtain ⟨ka, hka⟩ := h1 a hp.1 ha
    obtain ⟨kb, hkb⟩ := h2 b hp.2 hb
    refine ⟨max ka kb + 1, fun k hk r hr => ?_⟩
    obtain ⟨k, rfl⟩ : ∃ j, k = j + 1 := ⟨k - 1, by omega⟩
    have e : List.drop 13 ("(Pointer".toList ++ " Var:".toList ++ a ++ " PTR:".toList ++ b ++ ")".toList ++ r) =
      a ++ (" PTR:".toList ++ b ++ ")".toList ++ r) := by simp
    have e2 : List.drop 5 (" PTR:".toList ++ b ++ ")".toList ++ r) = b ++ (")".toList ++ r) := by simp
    rw [rd, if_neg (by simp), if_neg (by simp), if_neg (by simp), if_neg (by simp), if_neg (by simp), if_neg (by simp),
      if_neg (by simp), if_neg (by simp), if_neg (by simp), if_neg (by simp), if_pos (by simp), e,
      hka k (by omega) _ (by simp [NoDigit])]
    simp only [Option.bind_eq_bind, Option.bind_some, e2, hkb k (by omega) _ (show NoDigit (")".toList ++ r) by simp [NoDigit])]
    simp [DF.noTypes]
  | branch c t f h1 h2 h3 =>
    intro s hp h
    simp only [DF.plain, Bool.and_eq_true] at hp
    simp only [DF.tostr] at h
    obtain ⟨a, ha, h⟩ := bind_ok.mp h
    obtain ⟨b, hb, h⟩ := bind_ok.mp h
    obtain ⟨d, hd, h⟩ := bind_ok.mp h
    cases ok_inj.mp h
    obtain ⟨ka, hka⟩ := dumpReads_opt (by simp) hp.1.1 ha h1
    obtain ⟨kb, hkb⟩ := dumpReads_opt (by simp) hp.1.2 hb h2
    obtain ⟨kc, hkc⟩ := dumpReads_opt (by simp) hp.2 hd h3
    have part : ∀ {t : DF} {w s : Str}, dumpPart w t t.tostr = .ok s → s = [] ∨ ∃ x, s = w ++ x := by
      intro t w s h
      unfold dumpPart at h
      split at h
      · cases ok_inj.mp h; exact .inl rfl
      · obtain ⟨x, _, h⟩ := bind_ok.mp h
        cases ok_inj.mp h; exact .inr ⟨x, rfl⟩
    refine ⟨max ka (max kb kc) + 1, fun k hk r hr => ?_⟩
    obtain ⟨k, rfl⟩ : ∃ j, k = j + 1 := ⟨k - 1, by omega⟩
    have e : List.drop 7 ("(Branch".toList ++ a ++ b ++ d ++ ")".toList ++ r) = a ++ (b ++ (d ++ (")".toList ++ r))) := by simp
    have q1 := hka k (by omega) (b ++ (d ++ (")".toList ++ r)))
      (by rcases part hb with rfl | ⟨x, rfl⟩ <;> rcases part hd with rfl | ⟨y, rfl⟩ <;> simp [NoDigit])
      (by rcases part hb with rfl | ⟨x, rfl⟩ <;> rcases part hd with rfl | ⟨y, rfl⟩ <;> simp)
    have q2 := hkb k (by omega) (d ++ (")".toList ++ r))
      (by rcases part hd with rfl | ⟨y, rfl⟩ <;> simp [NoDigit])
      (by rcases part hd with rfl | ⟨y, rfl⟩ <;> simp)
    have q3 := hkc k (by omega) (")".toList ++ r) (by simp [NoDigit]) (by simp)
    rw [rd, if_neg (by simp), if_neg (by simp), if_neg (by simp), if_neg (by simp), if_neg (by simp), if_neg (by simp),
      if_neg (by simp), if_neg (by simp), if_neg (by simp), if_neg (by simp), if_neg (by simp), if_pos (by simp), e]
    simp only [Option.bind_eq_bind, Option.bind_some, q1, q2, q3]
    simp [DF.noTypes]
  | delay n h1 =>
    intro s hp h
    simp only [DF.tostr] at h
    obtain ⟨a, ha, h⟩ := bind_ok.mp h
    cases ok_inj.mp h
    unfold dumpPart at ha
    split at ha
    · rename_i hn
      cases ok_inj.mp ha
      subst hn
      refine ⟨1, fun k hk r hr => ?_⟩
      obtain ⟨k, rfl⟩ : ∃ j, k = j + 1 := ⟨k - 1, by omega⟩
      rw [rd, if_neg (by simp), if_neg (by simp), if_neg (by simp), if_neg (by simp), if_neg (by simp), if_neg (by simp),
        if_neg (by simp), if_neg (by simp), if_neg (by simp), if_neg (by simp), if_neg (by simp), if_neg (by simp), if_pos (by simp)]
      simp [DF.noTypes]
    · obtain ⟨x, hx, ha⟩ := bind_ok.mp ha
      cases ok_inj.mp ha
      obtain ⟨k0, hk0⟩ := h1 x hp hx
      have hs := tostr_start hx hp
      refine ⟨k0 + 1, fun k hk r hr => ?_⟩
      obtain ⟨k, rfl⟩ : ∃ j, k = j + 1 := ⟨k - 1, by omega⟩
      have e : List.drop 7 ("(Delay ".toList ++ ([] ++ x) ++ ")".toList ++ r) = x ++ (")".toList ++ r) := by simp
      have hh : (x ++ (")".toList ++ r)).head? ≠ some ')' := by
        cases x with
        | nil => exact absurd rfl hs.1
        | cons c cs => simpa using hs.2
      rw [rd, if_neg (by simp), if_neg (by simp), if_neg (by simp), if_neg (by simp), if_neg (by simp), if_neg (by simp),
        if_neg (by simp), if_neg (by simp), if_neg (by simp), if_neg (by simp), if_neg (by simp), if_neg (by simp), e, if_neg hh,
        hk0 k (by omega) _ (by simp [NoDigit])]
      simp [DF.noTypes]

/-! ### C87 -/

/-- Two plain trees with the same dump. -/
theorem dump_inj {t t' : DF} {s s' r r' : Str} (hp : t.plain = true) (hp' : t'.plain = true) (h : t.tostr = .ok s)
    (h' : t'.tostr = .ok s') (hr : NoDigit r) (hr' : NoDigit r') (e : s ++ r = s' ++ r') : t.noTypes = t'.noTypes ∧ r = r' := by
  obtain ⟨k, hk⟩ := dump_reads t s hp h
  obtain ⟨k', hk'⟩ := dump_reads t' s' hp' h'
  have h1 := hk (max k k') (by omega) r hr
  have h2 := hk' (max k k') (by omega) r' hr'
  rw [e, h2] at h1
  simp only [Option.some.injEq, Prod.mk.injEq] at h1
  exact ⟨h1.1.symm, h1.2.symm⟩

theorem repr_noTypes (n : ScopeChain) : (noTypesChain n).repr = n.repr := by
  simp only [ScopeChain.repr, noTypesChain, List.map_map]
  rfl

theorem tostr_noTypes (t : DF) : t.noTypes.tostr = t.tostr := by
  have list : ∀ ns : List DF, (∀ n ∈ ns, n.noTypes.tostr = n.tostr) → DF.tostrList (DF.noTypesList ns) = DF.tostrList ns := by
    intro ns ih
    induction ns with
    | nil => rfl
    | cons n ns ih2 =>
      simp only [DF.noTypesList, DF.tostrList, ih n (by simp), ih2 (fun m hm => ih m (by simp [hm]))]
  have part : ∀ (w : Str) (n : DF), n.noTypes.tostr = n.tostr → dumpPart w n.noTypes n.noTypes.tostr = dumpPart w n n.tostr := by
    intro w n h
    unfold dumpPart
    by_cases hn : n = .none
    · rw [if_pos hn, if_pos (noTypes_none.mpr hn)]
    · rw [if_neg hn, if_neg (fun h => hn (noTypes_none.mp h)), h]
  induction t using DF.ind with
  | term n =>
    have e : (noTypesChain n = []) = (n = []) := by simp [noTypesChain]
    simp only [DF.noTypes, DF.tostr, flat_dots, repr_noTypes, e]
  | op o ns ih => simp only [DF.noTypes, DF.tostr, list ns ih]
  | psel v m l h1 h2 h3 => simp only [DF.noTypes, DF.tostr, h1, h2, h3]
  | ptr v p h1 h2 => simp only [DF.noTypes, DF.tostr, h1, h2]
  | concat ns ih => simp only [DF.noTypes, DF.tostr, list ns ih]
  | branch c t f h1 h2 h3 => simp only [DF.noTypes, DF.tostr, part _ _ h1, part _ _ h2, part _ _ h3]
  | delay n h1 => simp only [DF.noTypes, DF.tostr, part _ _ h1]
  | sys s ns ih => simp only [DF.noTypes, DF.tostr, list ns ih]
  | _ => rfl

/-- **C87** Trees with plain names and texts and with integer values have the same dump exactly if they are the same tree,
the types of the scopes in the names apart. -/
theorem C87_tree_partial {t t' : DF} {s : Str} (hp : t.plain = true) (hp' : t'.plain = true) (h : t.tostr = .ok s) :
    t'.tostr = .ok s ↔ t'.noTypes = t.noTypes := by
  constructor
  · intro h'
    exact (dump_inj hp' hp h' h (r := []) (r' := []) (by simp [NoDigit]) (by simp [NoDigit]) rfl).1
  · intro e
    rw [← tostr_noTypes, e, tostr_noTypes, h]

/-- The parts of a dump follow each other. -/
theorem field_inj {t t' : DF} {w x x' r r' : Str} (hw : w ≠ []) (hp : t.plain = true) (hp' : t'.plain = true)
    (h : dumpField w t = .ok x) (h' : dumpField w t' = .ok x') (hr : NoDigit r) (hr' : NoDigit r')
    (hn : r.take w.length ≠ w) (hn' : r'.take w.length ≠ w) (e : x ++ r = x' ++ r') : t.noTypes = t'.noTypes ∧ r = r' := by
  obtain ⟨k, hk⟩ := dumpReads_opt hw hp h (fun s => dump_reads t s)
  obtain ⟨k', hk'⟩ := dumpReads_opt hw hp' h' (fun s => dump_reads t' s)
  have h1 := hk (max k k') (by omega) r hr hn
  have h2 := hk' (max k k') (by omega) r' hr' hn'
  rw [e, h2] at h1
  simp only [Option.some.injEq, Prod.mk.injEq] at h1
  exact ⟨h1.1.symm, h1.2.symm⟩

theorem field_start {t : DF} {w x : Str} (h : dumpField w t = .ok x) : x = [] ∨ ∃ y, x = w ++ y := by
  unfold dumpField dumpPart at h
  split at h
  · cases ok_inj.mp h; exact .inl rfl
  · obtain ⟨y, _, h⟩ := bind_ok.mp h
    cases ok_inj.mp h; exact .inr ⟨y, rfl⟩

theorem field_noTypes (w : Str) (t : DF) : dumpField w t.noTypes = dumpField w t := by
  unfold dumpField dumpPart
  by_cases hn : t = .none
  · rw [if_pos hn, if_pos (noTypes_none.mpr hn)]
  · rw [if_neg hn, if_neg (fun h => hn (noTypes_none.mp h)), tostr_noTypes]

/-- A name is read from the beginning of a text. -/
theorem name_inj {n n' : ScopeChain} {r r' : Str} (hp : plainChain n = true) (hp' : plainChain n' = true) (hne : n ≠ [])
    (hne' : n' ≠ []) (hr : ∀ c ∈ r.head?, c = ' ' ∨ c = ')') (hr' : ∀ c ∈ r'.head?, c = ' ' ∨ c = ')')
    (e : n.repr ++ r = n'.repr ++ r') : noTypesChain n = noTypesChain n' ∧ r = r' := by
  have key : ∀ {m : ScopeChain} {q : Str}, plainChain m = true → (∀ c ∈ q.head?, c = ' ' ∨ c = ')') →
      (m.repr ++ q).takeWhile (fun c => decide (c ≠ ' ' ∧ c ≠ ')')) = m.repr ∧
      (m.repr ++ q).dropWhile (fun c => decide (c ≠ ' ' ∧ c ≠ ')')) = q := by
    intro m q hm hq
    refine tw_dw ?_ ?_
    · intro c hc
      simp only [decide_eq_true_eq]
      constructor <;> (rintro rfl; exact chain_not hm (by decide) hc)
    · intro c hc
      rcases hq c hc with rfl | rfl <;> decide
  have h1 := key hp hr
  have h2 := key hp' hr'
  rw [e] at h1
  have h3 : n.repr = n'.repr := h1.1.symm.trans h2.1
  refine ⟨?_, h1.2.symm.trans h2.2⟩
  rw [← rdName_repr hp hne, ← rdName_repr hp' hne', h3]

/-- Everything the dump of an assignment shows is plain. -/
def Bind.plain (b : Bind) : Bool :=
  plainChain b.dest && !b.dest.isEmpty && b.msb.plain && b.lsb.plain && b.ptr.plain && b.tree.plain

/-- **C87** Assignments have the same dump exactly if they assign the same tree to the same bits of the same signal, the types
of the scopes in the names apart. -/
theorem C87_bind_partial {b b' : Bind} {s : Str} (hp : b.plain = true) (hp' : b'.plain = true) (h : b.tostr = .ok s) :
    b'.tostr = .ok s ↔ noTypesChain b'.dest = noTypesChain b.dest ∧ b'.msb.noTypes = b.msb.noTypes ∧
      b'.lsb.noTypes = b.lsb.noTypes ∧ b'.ptr.noTypes = b.ptr.noTypes ∧ b'.tree.noTypes = b.tree.noTypes := by
  constructor
  · intro h'
    simp only [Bind.plain, Bool.and_eq_true, Bool.not_eq_true', List.isEmpty_eq_false_iff] at hp hp'
    obtain ⟨⟨⟨⟨⟨p1, p2⟩, p3⟩, p4⟩, p5⟩, p6⟩ := hp
    obtain ⟨⟨⟨⟨⟨q1, q2⟩, q3⟩, q4⟩, q5⟩, q6⟩ := hp'
    unfold Bind.tostr at h h'
    obtain ⟨m, hm, h⟩ := bind_ok.mp h
    obtain ⟨l, hl, h⟩ := bind_ok.mp h
    obtain ⟨p, hpt, h⟩ := bind_ok.mp h
    obtain ⟨t, ht, h⟩ := bind_ok.mp h
    obtain ⟨m', hm', h'⟩ := bind_ok.mp h'
    obtain ⟨l', hl', h'⟩ := bind_ok.mp h'
    obtain ⟨p', hpt', h'⟩ := bind_ok.mp h'
    obtain ⟨t', ht', h'⟩ := bind_ok.mp h'
    have e : b'.dest.repr ++ (m' ++ (l' ++ (p' ++ (t' ++ ")".toList)))) = b.dest.repr ++ (m ++ (l ++ (p ++ (t ++ ")".toList)))) := by
      have := (ok_inj.mp h').trans (ok_inj.mp h).symm
      simpa using this
    have st : ∀ {w v u z : Str} {a b c d : DF} {ww vv uu zz : Str}, dumpField w a = .ok ww → dumpField v b = .ok vv →
        dumpField u c = .ok uu → dumpField z d = .ok zz → w.head? = some ' ' → v.head? = some ' ' → u.head? = some ' ' →
        z.head? = some ' ' → ∀ c ∈ (ww ++ (vv ++ (uu ++ (zz ++ ")".toList)))).head?, c = ' ' ∨ c = ')' := by
      intro w v u z a b c d ww vv uu zz h1 h2 h3 h4 e1 e2 e3 e4 x hx
      rcases field_start h1 with rfl | ⟨y1, rfl⟩ <;> rcases field_start h2 with rfl | ⟨y2, rfl⟩ <;>
        rcases field_start h3 with rfl | ⟨y3, rfl⟩ <;> rcases field_start h4 with rfl | ⟨y4, rfl⟩ <;>
        simp [e1, e2, e3, e4] at hx <;> simp [← hx]
    have nd : ∀ {r : Str}, (∀ c ∈ r.head?, c = ' ' ∨ c = ')') → NoDigit r := by
      intro r hr c hc
      rcases hr c hc with rfl | rfl <;> decide
    have nil : ∀ w : Str, dumpField w .none = .ok [] := fun w => rfl
    obtain ⟨r1, e⟩ := name_inj q1 p1 q2 p2 (st hm' hl' hpt' ht' rfl rfl rfl rfl) (st hm hl hpt ht rfl rfl rfl rfl) e
    obtain ⟨r2, e⟩ := field_inj (by simp) q3 p3 hm' hm (nd (st (nil " ".toList) hl' hpt' ht' rfl rfl rfl rfl))
      (nd (st (nil " ".toList) hl hpt ht rfl rfl rfl rfl))
      (by rcases field_start hl' with rfl | ⟨y1, rfl⟩ <;> rcases field_start hpt' with rfl | ⟨y2, rfl⟩ <;>
            rcases field_start ht' with rfl | ⟨y3, rfl⟩ <;> simp)
      (by rcases field_start hl with rfl | ⟨y1, rfl⟩ <;> rcases field_start hpt with rfl | ⟨y2, rfl⟩ <;>
            rcases field_start ht with rfl | ⟨y3, rfl⟩ <;> simp) e
    obtain ⟨r3, e⟩ := field_inj (by simp) q4 p4 hl' hl (nd (st (nil " ".toList) (nil " ".toList) hpt' ht' rfl rfl rfl rfl))
      (nd (st (nil " ".toList) (nil " ".toList) hpt ht rfl rfl rfl rfl))
      (by rcases field_start hpt' with rfl | ⟨y2, rfl⟩ <;> rcases field_start ht' with rfl | ⟨y3, rfl⟩ <;> simp)
      (by rcases field_start hpt with rfl | ⟨y2, rfl⟩ <;> rcases field_start ht with rfl | ⟨y3, rfl⟩ <;> simp) e
    obtain ⟨r4, e⟩ := field_inj (by simp) q5 p5 hpt' hpt
      (nd (st (nil " ".toList) (nil " ".toList) (nil " ".toList) ht' rfl rfl rfl rfl))
      (nd (st (nil " ".toList) (nil " ".toList) (nil " ".toList) ht rfl rfl rfl rfl))
      (by rcases field_start ht' with rfl | ⟨y3, rfl⟩ <;> simp)
      (by rcases field_start ht with rfl | ⟨y3, rfl⟩ <;> simp) e
    obtain ⟨r5, e⟩ := field_inj (by simp) q6 p6 ht' ht (by simp [NoDigit]) (by simp [NoDigit]) (by simp) (by simp) e
    exact ⟨r1, r2, r3, r4, r5⟩
  · rintro ⟨e1, e2, e3, e4, e5⟩
    rw [← h]
    unfold Bind.tostr
    rw [← field_noTypes " msb:".toList b'.msb, ← field_noTypes " lsb:".toList b'.lsb, ← field_noTypes " ptr:".toList b'.ptr,
      ← field_noTypes " tree:".toList b'.tree, ← repr_noTypes b'.dest, e1, e2, e3, e4, e5]
    simp only [field_noTypes, repr_noTypes]

/-- **C87** is false for the kind of an assignment: clocked and combinational assignments, parameters and plain assignments
have the same dump. -/
theorem C87_bind_kind_false (b : Bind) (p : Str) (a : Option AlwaysInfo) :
    ({ b with param := p, always := a } : Bind).tostr = b.tostr := rfl

end Pyv
