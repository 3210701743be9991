import Verif.Props.DumpSignal
import Verif.Props.SplitterProps
/-
  C88: which conditions `remove_reset_condition` takes for tests of the reset.
-/
namespace Pyv

/-! ### Specification -/

mutual
/-- The names (of signals, instances, blocks) and the texts of constants and system functions that occur in a tree. -/
def DF.words : DF → List Str
  | .term n => n.map (·.name)
  | .intc s => [s]
  | .fltc s => [s]
  | .strc s => [s]
  | .ev (.str s) _ _ true => [s]
  | .op _ ns => DF.wordsList ns
  | .psel v m l => v.words ++ m.words ++ l.words
  | .ptr v p => v.words ++ p.words
  | .concat ns => DF.wordsList ns
  | .branch c t f => c.words ++ t.words ++ f.words
  | .delay n => n.words
  | .sys s ns => s :: DF.wordsList ns
  | _ => []
/-- `DF.words` for lists. -/
def DF.wordsList : List DF → List Str
  | [] => []
  | n :: ns => n.words ++ DF.wordsList ns
end

theorem DF.mem_wordsList {x : Str} {ns : List DF} : x ∈ DF.wordsList ns ↔ ∃ n ∈ ns, x ∈ n.words := by
  induction ns with
  | nil => simp [DF.wordsList]
  | cons n ns ih => simp [DF.wordsList, ih]

/-- The text contains `rst` or `reset`, in small or capital letters. -/
def HasReset (s : Str) : Prop :=
  ∃ a b w : Str, s = a ++ w ++ b ∧ (w.map Char.toLower = "rst".toList ∨ w.map Char.toLower = "reset".toList)

/-! ### Occurrences -/

theorem hasSub_iff (p : Str) (hp : p ≠ []) (s : Str) : hasSub p s = true ↔ p <:+: s := by
  induction s with
  | nil => simp [hasSub, hp]
  | cons c cs ih =>
    rw [hasSub, Bool.or_eq_true, List.isPrefixOf_iff_prefix, ih, List.infix_cons_iff]

theorem isResetName_iff (s : Str) : isResetName s = true ↔ HasReset s := by
  have key : ∀ p : Str, p <:+: s.map Char.toLower ↔ ∃ a b w : Str, s = a ++ w ++ b ∧ w.map Char.toLower = p := by
    intro p
    constructor
    · rintro ⟨a, b, h⟩
      have h' := h.symm
      obtain ⟨ab, b', hs, h1, h2⟩ := List.map_eq_append_iff.mp h'
      obtain ⟨a', w, hs', h3, h4⟩ := List.map_eq_append_iff.mp h1
      exact ⟨a', b', w, by rw [hs, hs'], h4⟩
    · rintro ⟨a, b, w, rfl, rfl⟩
      exact ⟨a.map Char.toLower, b.map Char.toLower, by simp⟩
  rw [isResetName, Bool.or_eq_true, hasSub_iff _ (by simp), hasSub_iff _ (by simp), key, key]
  constructor
  · rintro (⟨a, b, w, h1, h2⟩ | ⟨a, b, w, h1, h2⟩)
    · exact ⟨a, b, w, h1, .inr h2⟩
    · exact ⟨a, b, w, h1, .inl h2⟩
  · rintro ⟨a, b, w, h1, h2 | h2⟩
    · exact .inr ⟨a, b, w, h1, h2⟩
    · exact .inl ⟨a, b, w, h1, h2⟩

theorem infix_mid {p a b : Str} {d : Char} (hd : d ∉ p) : p <:+: a ++ d :: b ↔ p <:+: a ∨ p <:+: b := by
  constructor
  · rintro ⟨x, y, h⟩
    rw [List.append_eq_append_iff] at h
    rcases h with ⟨u, h1, h2⟩ | ⟨u, h1, h2⟩
    · exact .inl ⟨x, u, by rw [h1]⟩
    · cases u with
      | nil =>
        simp only [List.append_nil] at h1
        exact .inl ⟨x, [], by simpa using h1⟩
      | cons c u =>
        simp only [List.cons_append, List.cons.injEq] at h2
        obtain ⟨rfl, h2⟩ := h2
        -- x ++ p = a ++ d :: u
        rw [List.append_eq_append_iff] at h1
        rcases h1 with ⟨v, h3, h4⟩ | ⟨v, h3, h4⟩
        · exact absurd (by rw [h4]; simp : d ∈ p) hd
        · cases v with
          | nil =>
            simp only [List.nil_append] at h4
            exact absurd (by rw [← h4]; simp : d ∈ p) hd
          | cons e v =>
            simp only [List.cons_append, List.cons.injEq] at h4
            exact .inr ⟨v, y, by rw [h2, h4.2]⟩
  · rintro (⟨x, y, h⟩ | ⟨x, y, h⟩)
    · exact ⟨x, y ++ d :: b, by rw [← h]; simp⟩
    · exact ⟨a ++ d :: x, y, by rw [← h]; simp⟩

/-- A character that is no letter. -/
def Sep (d : Char) : Prop := d ∈ "()[].,:' -".toList

theorem reset_mid {a b : Str} {d : Char} (hd : Sep d) : isResetName (a ++ d :: b) = true ↔ isResetName a = true ∨ isResetName b = true := by
  have h1 : d.toLower ∉ "reset".toList ∧ d.toLower ∉ "rst".toList := by
    have : d = '(' ∨ d = ')' ∨ d = '[' ∨ d = ']' ∨ d = '.' ∨ d = ',' ∨ d = ':' ∨ d = '\'' ∨ d = ' ' ∨ d = '-' := by
      simpa [Sep] using hd
    rcases this with rfl | rfl | rfl | rfl | rfl | rfl | rfl | rfl | rfl | rfl <;> decide
  simp only [isResetName, Bool.or_eq_true, hasSub_iff _ (show "reset".toList ≠ [] by simp),
    hasSub_iff _ (show "rst".toList ≠ [] by simp), List.map_append, List.map_cons, infix_mid h1.1, infix_mid h1.2]
  tauto

theorem reset_mid' {a b : Str} (d : Char) (hd : Sep d) (ha : isResetName a = false) :
    isResetName (a ++ d :: b) = true ↔ isResetName b = true := by
  rw [reset_mid hd, ha]; simp

theorem noReset {s : Str} (h : ∀ c ∈ s, c.toLower ≠ 'r') : isResetName s = false := by
  rw [← Bool.not_eq_true, isResetName_iff]
  rintro ⟨a, b, w, rfl, hw⟩
  have : 'r' ∈ w.map Char.toLower := by rcases hw with hw | hw <;> (rw [hw]; decide)
  obtain ⟨c, hc, he⟩ := List.mem_map.mp this
  exact h c (by simp [hc]) he

theorem digit_lower {c : Char} (h : c.isDigit = true) : c.toLower ≠ 'r' := by
  have h1 : c.toLower = c := by
    unfold Char.toLower
    simp only [Char.isDigit, Bool.and_eq_true, decide_eq_true_eq] at h
    rw [dif_neg]
    intro hh
    have h2 := h.2
    have h3 := hh.1
    rw [ge_iff_le, UInt32.le_iff_toNat_le] at h3
    rw [UInt32.le_iff_toNat_le] at h2
    have e1 : ('9'.val).toNat = 57 := rfl
    have e2 : ('A'.val).toNat = 65 := rfl
    omega
  rw [h1]
  rintro rfl
  exact absurd h (by decide)

theorem width_noReset (w : Option Int) : ∀ c ∈ widthStr w, c.toLower ≠ 'r' := by
  intro c hc
  unfold widthStr at hc
  split at hc
  · simp at hc
  · rcases intStr_chars _ c hc with rfl | h
    · decide
    · exact digit_lower h
  · have : c = 'N' ∨ c = 'o' ∨ c = 'n' ∨ c = 'e' := by simpa using hc
    rcases this with rfl | rfl | rfl | rfl <;> decide

theorem int_noReset (n : Int) : isResetName (intStr n) = false := by
  refine noReset ?_
  intro c hc
  rcases intStr_chars _ c hc with rfl | h
  · decide
  · exact digit_lower h

theorem label_reset (l : ScopeLabel) : isResetName l.repr = true ↔ isResetName l.name = true := by
  unfold ScopeLabel.repr
  split
  · exact .rfl
  · rename_i n _
    rw [List.append_assoc, List.cons_append, reset_mid (by simp [Sep]), reset_mid' ']' (by simp [Sep]) (int_noReset n)]
    have : isResetName [] = false := rfl
    simp [this]

theorem chain_reset (n : ScopeChain) : isResetName n.repr = true ↔ ∃ w ∈ n.map (·.name), isResetName w = true := by
  unfold ScopeChain.repr
  induction n with
  | nil => simp [dotJoin]; decide
  | cons l n ih =>
    cases n with
    | nil => simp [dotJoin, label_reset]
    | cons m n =>
      rw [List.map_cons, List.map_cons, dotJoin, reset_mid (by simp [Sep]), label_reset]
      rw [List.map_cons] at ih
      rw [ih]
      simp
      · simp

theorem op_noReset (o : Op) : isResetName o.pyName = false := by cases o <;> decide +kernel

theorem comma_reset {ns : List DF} {cs : List Str} (h : List.Forall₂ (fun n c => isResetName c = true ↔ ∃ w ∈ n.words, isResetName w = true) ns cs) :
    isResetName (commaJoin cs) = true ↔ ∃ w ∈ DF.wordsList ns, isResetName w = true := by
  induction h with
  | nil => simp [commaJoin, DF.wordsList]; decide
  | @cons n c ns cs h1 h2 ih =>
    cases h2 with
    | nil => simpa [commaJoin, DF.wordsList] using h1
    | @cons m d ns cs h3 h4 =>
      rw [commaJoin, reset_mid (by simp [Sep]), h1, ih]
      · simp only [DF.mem_wordsList]
        constructor
        · rintro (⟨w, h, h'⟩ | ⟨w, ⟨n, hn, h⟩, h'⟩)
          · exact ⟨w, ⟨_, List.mem_cons_self, h⟩, h'⟩
          · exact ⟨w, ⟨n, List.mem_cons_of_mem _ hn, h⟩, h'⟩
        · rintro ⟨w, ⟨n, hn, h⟩, h'⟩
          rcases List.mem_cons.mp hn with rfl | hn
          · exact .inl ⟨w, h, h'⟩
          · exact .inr ⟨w, ⟨n, hn, h⟩, h'⟩
      · simp

theorem next_reset {ns : List DF} {cs : List Str} (h : List.Forall₂ (fun n c => isResetName c = true ↔ ∃ w ∈ n.words, isResetName w = true) ns cs)
    (pre : Str) :
    isResetName (pre ++ nextText cs) = true ↔ isResetName pre = true ∨ ∃ w ∈ DF.wordsList ns, isResetName w = true := by
  have nil : isResetName [] = false := rfl
  unfold nextText
  split
  · rename_i hc
    subst hc
    cases h
    have e : pre ++ " Next)".toList = pre ++ ' ' :: ("Next".toList ++ ')' :: []) := by simp
    rw [e, reset_mid (by simp [Sep]), reset_mid' ')' (by simp [Sep]) (by decide), nil]
    simp [DF.wordsList]
  · have e : pre ++ (" Next:".toList ++ commaJoin cs ++ ")".toList) = pre ++ ' ' :: ("Next".toList ++ ':' :: (commaJoin cs ++ ')' :: [])) := by
      simp
    rw [e, reset_mid (by simp [Sep]), reset_mid' ':' (by simp [Sep]) (by decide), reset_mid (by simp [Sep]), nil, comma_reset h]
    simp

theorem part_reset {t : DF} {s x : Str} (w : Str) (hw : isResetName w = false) (h : dumpPart (' ' :: w ++ [':']) t t.tostr = .ok x)
    (ih : ∀ s, t.tostr = .ok s → (isResetName s = true ↔ ∃ w ∈ t.words, isResetName w = true))
    (hs : ∃ c r, s = c :: r ∧ Sep c) (pre : Str) :
    isResetName (pre ++ x ++ s) = true ↔ isResetName pre = true ∨ (∃ w ∈ t.words, isResetName w = true) ∨ isResetName s = true := by
  have nil : isResetName [] = false := rfl
  obtain ⟨c, r, rfl, hc⟩ := hs
  have hcr : isResetName (c :: r) = true ↔ isResetName r = true := by
    have := reset_mid' (a := []) (b := r) c hc rfl
    simpa using this
  unfold dumpPart at h
  split at h
  · rename_i hn
    cases ok_inj.mp h
    subst hn
    rw [List.append_nil, reset_mid hc, hcr]
    simp [DF.words]
  · obtain ⟨y, hy, h⟩ := bind_ok.mp h
    cases ok_inj.mp h
    have e : pre ++ (' ' :: w ++ [':'] ++ y) ++ c :: r = pre ++ ' ' :: (w ++ ':' :: (y ++ c :: r)) := by simp
    rw [e, reset_mid (by simp [Sep]), reset_mid' ':' (by simp [Sep]) hw, reset_mid hc, ih y hy, hcr]

/-- **C88** A condition is taken for a test of the reset exactly if one of the names in it (of a signal, an instance or a block
of the path), or the text of a constant, contains `rst` or `reset`. -/
theorem dump_reset (t : DF) : ∀ s, t.tostr = .ok s → (isResetName s = true ↔ ∃ w ∈ t.words, isResetName w = true) := by
  have nil : isResetName [] = false := rfl
  have list : ∀ {ns : List DF} {cs : List Str}, (∀ n ∈ ns, ∀ s, n.tostr = .ok s → (isResetName s = true ↔ ∃ w ∈ n.words, isResetName w = true)) →
      DF.tostrList ns = .ok cs → List.Forall₂ (fun n c => isResetName c = true ↔ ∃ w ∈ n.words, isResetName w = true) ns cs := by
    intro ns cs ih h
    have := tostrList_ok h
    clear h
    induction this with
    | nil => exact .nil
    | cons h1 _ ih2 => exact .cons (ih _ (by simp) _ h1) (ih2 (fun n hn => ih n (by simp [hn])))
  induction t using DF.ind with
  | none => intro s h; cases h
  | term n =>
    intro s h
    simp only [DF.tostr, flat_dots] at h
    cases ok_inj.mp h
    split
    · rename_i hn; subst hn
      have e : "(Terminal ".toList.dropLast ++ ")".toList = "(Terminal)".toList := by decide
      rw [e]
      simp [DF.words]; decide
    · have e : "(Terminal ".toList ++ n.repr ++ ")".toList = "(Terminal".toList ++ ' ' :: (n.repr ++ ')' :: []) := by simp
      rw [e, reset_mid' ' ' (by simp [Sep]) (by decide), reset_mid (by simp [Sep]), nil, chain_reset]
      simp [DF.words]
  | intc x =>
    intro s h
    cases ok_inj.mp h
    have e : "(IntConst ".toList ++ x ++ ")".toList = "(IntConst".toList ++ ' ' :: (x ++ ')' :: []) := by simp
    rw [e, reset_mid' ' ' (by simp [Sep]) (by decide), reset_mid (by simp [Sep]), nil]
    simp [DF.words]
  | fltc x =>
    intro s h
    cases ok_inj.mp h
    have e : "(FloatConst ".toList ++ x ++ ")".toList = "(FloatConst".toList ++ ' ' :: (x ++ ')' :: []) := by simp
    rw [e, reset_mid' ' ' (by simp [Sep]) (by decide), reset_mid (by simp [Sep]), nil]
    simp [DF.words]
  | strc x =>
    intro s h
    cases ok_inj.mp h
    have e : "(StringConst ".toList ++ x ++ ")".toList = "(StringConst".toList ++ ' ' :: (x ++ ')' :: []) := by simp
    rw [e, reset_mid' ' ' (by simp [Sep]) (by decide), reset_mid (by simp [Sep]), nil]
    simp [DF.words]
  | ev v w a b =>
    intro s h
    unfold DF.tostr at h
    split at h
    · cases ok_inj.mp h; simp [DF.words]
    · rename_i n
      cases ok_inj.mp h
      have : isResetName ((if n < 0 then "(-".toList else []) ++ widthStr w ++ "'d".toList ++ natStr n.natAbs ++
          if n < 0 then ")".toList else []) = false := by
        refine noReset ?_
        intro c hc
        simp only [List.mem_append] at hc
        rcases hc with (((hc | hc) | hc) | hc) | hc
        · split at hc
          · have : c = '(' ∨ c = '-' := by simpa using hc
            rcases this with rfl | rfl <;> decide
          · simp at hc
        · exact width_noReset w c hc
        · have : c = '\'' ∨ c = 'd' := by simpa using hc
          rcases this with rfl | rfl <;> decide
        · exact digit_lower (natStr_digits _ _ hc)
        · split at hc
          · have : c = ')' := by simpa using hc
            subst this; decide
          · simp at hc
      rw [this]
      simp [DF.words]
    · cases h
    · cases h
  | undef w =>
    intro s h
    cases ok_inj.mp h
    have : isResetName (widthStr w ++ "'d".toList ++ "x".toList) = false := by
      refine noReset ?_
      intro c hc
      simp only [List.mem_append] at hc
      rcases hc with (hc | hc) | hc
      · exact width_noReset w c hc
      · have : c = '\'' ∨ c = 'd' := by simpa using hc
        rcases this with rfl | rfl <;> decide
      · have : c = 'x' := by simpa using hc
        subst this; decide
    rw [this]; simp [DF.words]
  | hiz w =>
    intro s h
    cases ok_inj.mp h
    have : isResetName (widthStr w ++ "'d".toList ++ "z".toList) = false := by
      refine noReset ?_
      intro c hc
      simp only [List.mem_append] at hc
      rcases hc with (hc | hc) | hc
      · exact width_noReset w c hc
      · have : c = '\'' ∨ c = 'd' := by simpa using hc
        rcases this with rfl | rfl <;> decide
      · have : c = 'z' := by simpa using hc
        subst this; decide
    rw [this]; simp [DF.words]
  | op o ns ih =>
    intro s h
    simp only [DF.tostr] at h
    obtain ⟨cs, h1, h⟩ := bind_ok.mp h
    rw [list_text] at h
    cases ok_inj.mp h
    have e : "(Operator ".toList ++ o.pyName = "(Operator".toList ++ ' ' :: o.pyName := by simp
    rw [next_reset (list ih h1), e, reset_mid' ' ' (by simp [Sep]) (by decide), op_noReset]
    simp [DF.words]
  | concat ns ih =>
    intro s h
    simp only [DF.tostr] at h
    obtain ⟨cs, h1, h⟩ := bind_ok.mp h
    rw [list_text] at h
    cases ok_inj.mp h
    have e : isResetName "(Concat".toList = false := by decide
    rw [next_reset (list ih h1), e]
    simp [DF.words]
  | sys o ns ih =>
    intro s h
    simp only [DF.tostr] at h
    obtain ⟨cs, h1, h⟩ := bind_ok.mp h
    rw [list_text] at h
    cases ok_inj.mp h
    have e : "(Syscall ".toList ++ o = "(Syscall".toList ++ ' ' :: o := by simp
    rw [next_reset (list ih h1), e, reset_mid' ' ' (by simp [Sep]) (by decide)]
    simp [DF.words]
  | psel v m l h1 h2 h3 =>
    intro s h
    simp only [DF.tostr] at h
    obtain ⟨a, ha, h⟩ := bind_ok.mp h
    obtain ⟨b, hb, h⟩ := bind_ok.mp h
    obtain ⟨c, hc, h⟩ := bind_ok.mp h
    cases ok_inj.mp h
    have e : "(Partselect".toList ++ " Var:".toList ++ a ++ " MSB:".toList ++ b ++ " LSB:".toList ++ c ++ ")".toList =
      "(Partselect Var".toList ++ ':' :: (a ++ ' ' :: ("MSB".toList ++ ':' :: (b ++ ' ' :: ("LSB".toList ++ ':' :: (c ++ ')' :: []))))) := by
      simp
    rw [e, reset_mid' ':' (by simp [Sep]) (by decide), reset_mid (by simp [Sep]), reset_mid' ':' (by simp [Sep]) (by decide),
      reset_mid (by simp [Sep]), reset_mid' ':' (by simp [Sep]) (by decide), reset_mid (by simp [Sep]), nil, h1 a ha, h2 b hb, h3 c hc]
    simp only [DF.words, List.mem_append, or_and_right, exists_or]
    simp [or_assoc]
  | ptr v m h1 h2 =>
    intro s h
    simp only [DF.tostr] at h
    obtain ⟨a, ha, h⟩ := bind_ok.mp h
    obtain ⟨b, hb, h⟩ := bind_ok.mp h
    cases ok_inj.mp h
    have e : "(Pointer".toList ++ " Var:".toList ++ a ++ " PTR:".toList ++ b ++ ")".toList =
      "(Pointer Var".toList ++ ':' :: (a ++ ' ' :: ("PTR".toList ++ ':' :: (b ++ ')' :: []))) := by
      simp
    rw [e, reset_mid' ':' (by simp [Sep]) (by decide), reset_mid (by simp [Sep]), reset_mid' ':' (by simp [Sep]) (by decide),
      reset_mid (by simp [Sep]), nil, h1 a ha, h2 b hb]
    simp only [DF.words, List.mem_append, or_and_right, exists_or]
    simp
  | branch c t f h1 h2 h3 =>
    intro s h
    simp only [DF.tostr] at h
    obtain ⟨a, ha, h⟩ := bind_ok.mp h
    obtain ⟨b, hb, h⟩ := bind_ok.mp h
    obtain ⟨d, hd, h⟩ := bind_ok.mp h
    cases ok_inj.mp h
    have part : ∀ {t : DF} {w s : Str}, dumpPart w t t.tostr = .ok s → s = [] ∨ ∃ x, s = w ++ x := by
      intro t w s h
      exact field_start (t := t) h
    have e : "(Branch".toList ++ a ++ b ++ d ++ ")".toList = "(Branch".toList ++ a ++ (b ++ (d ++ ")".toList)) := by simp
    have e2 : b ++ (d ++ ")".toList) = [] ++ b ++ (d ++ ")".toList) := by simp
    have e3 : d ++ ")".toList = [] ++ d ++ ")".toList := by simp
    have s1 : ∃ c r, b ++ (d ++ ")".toList) = c :: r ∧ Sep c := by
      rcases part hb with rfl | ⟨x, rfl⟩ <;> rcases part hd with rfl | ⟨y, rfl⟩ <;>
        exact ⟨_, _, by simp; exact ⟨rfl, rfl⟩, by simp [Sep]⟩
    have s2 : ∃ c r, d ++ ")".toList = c :: r ∧ Sep c := by
      rcases part hd with rfl | ⟨y, rfl⟩ <;> exact ⟨_, _, by simp; exact ⟨rfl, rfl⟩, by simp [Sep]⟩
    have hb0 : isResetName "(Branch".toList = false := by decide
    have hcl : isResetName ")".toList = false := by decide
    rw [e, part_reset "Cond".toList (by decide) ha h1 s1, e2, part_reset "True".toList (by decide) hb h2 s2, e3,
      part_reset (s := ")".toList) "False".toList (by decide) hd h3 ⟨')', [], rfl, by simp [Sep]⟩, hb0, nil, hcl]
    simp only [DF.words, List.mem_append, or_and_right, exists_or]
    simp [or_assoc]
  | delay n h1 =>
    intro s h
    simp only [DF.tostr] at h
    obtain ⟨a, ha, h⟩ := bind_ok.mp h
    cases ok_inj.mp h
    have e : "(Delay ".toList ++ a ++ ")".toList = "(Delay".toList ++ ' ' :: (a ++ ')' :: []) := by simp
    rw [e, reset_mid' ' ' (by simp [Sep]) (by decide), reset_mid (by simp [Sep]), nil]
    unfold dumpPart at ha
    split at ha
    · rename_i hn
      cases ok_inj.mp ha
      subst hn
      simp [DF.words, nil]
    · obtain ⟨x, hx, ha⟩ := bind_ok.mp ha
      cases ok_inj.mp ha
      simpa [DF.words] using h1 x hx

/-! ### C88 -/

/-- **C88** `remove_reset_condition` removes a condition exactly if one of the names in it (of a signal, or of an instance or
block on the way to it) or the text of a constant contains `rst` or `reset`: it removes nothing else. -/
theorem C88_exact {c : DF} {s : Str} (h : c.tostr = .ok s) (cs : List DF) :
    c ∈ removeResetCondlist isResetCond cs ↔ c ∈ cs ∧ ¬ ∃ w ∈ c.words, HasReset w := by
  have hw : (∃ w ∈ c.words, HasReset w) ↔ isResetCond c = true := by
    rw [isResetCond, h]
    simp only [dump_reset c s h, isResetName_iff]
  rw [removeResetCondlist, List.mem_filter, hw]
  simp

/-- **C88** is false: every condition that reads a signal on whose path some name contains these letters is removed, also if
that is no reset. -/
theorem C88_removed_false {c : DF} {s : Str} (h : c.tostr = .ok s) {n : ScopeChain} {l : ScopeLabel} (hn : n ∈ c.terms)
    (hl : l ∈ n) (hr : HasReset l.name) (cs : List DF) : c ∉ removeResetCondlist isResetCond cs := by
  rw [C88_exact h]
  rintro ⟨hcs, h2⟩
  refine h2 ⟨l.name, ?_, hr⟩
  clear h h2 hr hcs
  induction c using DF.ind with
  | term m => simp only [DF.terms, List.mem_singleton] at hn; subst hn; exact List.mem_map.mpr ⟨l, hl, rfl⟩
  | op o ns ih =>
    simp only [DF.terms] at hn
    obtain ⟨m, hm, hn⟩ := DF.mem_termsList.mp hn
    have := ih m hm hn
    simp only [DF.words]
    exact DF.mem_wordsList.mpr ⟨m, hm, this⟩
  | psel v m k h1 h2 h3 =>
    simp only [DF.terms, DF.words, List.mem_append] at hn ⊢
    rcases hn with (hn | hn) | hn
    · exact .inl (.inl (h1 hn))
    · exact .inl (.inr (h2 hn))
    · exact .inr (h3 hn)
  | ptr v p h1 h2 =>
    simp only [DF.terms, DF.words, List.mem_append] at hn ⊢
    rcases hn with hn | hn
    · exact .inl (h1 hn)
    · exact .inr (h2 hn)
  | concat ns ih =>
    simp only [DF.terms] at hn
    obtain ⟨m, hm, hn⟩ := DF.mem_termsList.mp hn
    have := ih m hm hn
    simp only [DF.words]
    exact DF.mem_wordsList.mpr ⟨m, hm, this⟩
  | branch v m k h1 h2 h3 =>
    simp only [DF.terms, DF.words, List.mem_append] at hn ⊢
    rcases hn with (hn | hn) | hn
    · exact .inl (.inl (h1 hn))
    · exact .inl (.inr (h2 hn))
    · exact .inr (h3 hn)
  | delay m h1 => exact h1 hn
  | sys o ns ih =>
    simp only [DF.terms] at hn
    obtain ⟨m, hm, hn⟩ := DF.mem_termsList.mp hn
    have := ih m hm hn
    simp only [DF.words]
    refine List.mem_cons_of_mem _ ?_
    exact DF.mem_wordsList.mpr ⟨m, hm, this⟩
  | _ => simp [DF.terms] at hn

/-- A name of the module `top`. -/
def c88n (s : String) : ScopeChain := [⟨"top".toList, .module, none⟩, ⟨s.toList, .signal, none⟩]

/-- A register of which `first` guards a step: `if (rst) q <= 0; else if (first) q <= 1; else q <= d;`. -/
def c88t : DF := .branch (.term (c88n "rst")) (.intc "0".toList)
  (.branch (.term (c88n "first")) (.intc "1".toList) (.term (c88n "d")))

/-- **C88** A signal with the name `first` is taken for a reset: of the three functions of the register only the last is left,
and its conditions are gone. -/
theorem C88_first_false :
    (split c88t).map (removeResetCondition isResetCond) = .ok [([], .term (c88n "d"))] := by decide +kernel

example : (split c88t).map (fun d => d.length) = .ok 3 := by decide +kernel

/-- A condition that is no test of a reset is kept, one that is is removed. -/
example : removeResetCondlist isResetCond [.op .ulnot [.term (c88n "rst_n")], .op .eq [.term (c88n "state"), .intc "2'd1".toList]] =
    [.op .eq [.term (c88n "state"), .intc "2'd1".toList]] := by decide +kernel

end Pyv
