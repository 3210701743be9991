import Verif.LexSpec
import Verif.Props.LexProps
/-
  Literals and names are lexed as the single tokens they are, whatever delimiter follows.
-/
namespace Pyv

/-- A text that does not go on with a literal. -/
def Delim (r : Str) : Prop := ∀ c, r.head? = some c → isIdChar c = false ∧ c ≠ '\'' ∧ c ≠ '.' ∧ c ≠ '?'

theorem takeWhile_stop (p : Char → Bool) (ds r : Str) (h : ∀ c ∈ ds, p c = true) (hr : ∀ c, r.head? = some c → p c = false) :
    (ds ++ r).takeWhile p = ds ∧ (ds ++ r).dropWhile p = r := by
  induction ds with
  | nil =>
    cases r with
    | nil => simp
    | cons c r => have := hr c rfl; simp [this]
  | cons d ds ih =>
    have h1 := h d (by simp)
    have h2 := ih (fun c hc => h c (by simp [hc]))
    simp [h1, h2.1, h2.2]

theorem isDig_idChar {c : Char} (h : isDig c = true) : isIdChar c = true := by simp [isIdChar, h]

theorem Delim.dig {r : Str} (h : Delim r) : ∀ c, r.head? = some c → isDig c = false := by
  intro c hc
  have := (h c hc).1
  cases hd : isDig c with
  | false => rfl
  | true => rw [isDig_idChar hd] at this; simp at this

theorem scanFloat_none (cs : Str)
    (h : ∀ c, (cs.dropWhile isDig).head? = some c → c ≠ '.' ∧ c ≠ 'e' ∧ c ≠ 'E') : scanFloat cs = none := by
  unfold scanFloat
  simp only
  split
  · next r he => have := h '.' (by rw [he]; rfl); simp at this
  · next r _ =>
    split
    · rfl
    · cases r' : (List.dropWhile isDig cs) with
      | nil => rfl
      | cons c t =>
        have := h c (by rw [r']; rfl)
        simp [scanExp, this.2.1, this.2.2]

theorem scanSkip_none (c : Char) (cs : Str) (h1 : c ≠ '`') (h2 : c ≠ '/') : scanSkip (c :: cs) = none := by
  unfold scanSkip
  split <;> simp_all

theorem scanQuoted_none (s : Str) (h : s.head? ≠ some '"') : scanQuoted s = none := by
  unfold scanQuoted
  split
  · simp at h
  · rfl

theorem lexTok_int (s s' r' : Str) (h1 : scanSkip s = none) (h2 : s.head? ≠ some '"') (h3 : scanFloat s = none)
    (h4 : scanInt s = some (s', r')) : lexTok s = some (some (.int s'), r') := by
  simp only [lexTok, h1, h3, h4, scanQuoted_none s h2]

theorem isDig_ne {c : Char} (h : isDig c = true) : c ≠ '`' ∧ c ≠ '/' ∧ c ≠ '"' ∧ c ≠ '.' ∧ c ≠ 'e' ∧ c ≠ 'E' ∧ c ≠ '\'' ∧ c ≠ ' ' ∧ c ≠ '\t' ∧ c ≠ '(' ∧ c ≠ '_' := by
  refine ⟨?_, ?_, ?_, ?_, ?_, ?_, ?_, ?_, ?_, ?_, ?_⟩ <;> (rintro rfl; revert h; decide)

theorem isDig_quote : isDig '\'' = false := by decide

/-- The class of a rule's later digits contains no delimiter. -/
theorem Delim.cls {r : Str} (h : Delim r) (cls : Str) (hc : ∀ x ∈ cls, isIdChar x = true ∨ x = '?') :
    ∀ c, r.head? = some c → decide (c ∈ cls) = false := by
  intro c hcr
  have h1 := h c hcr
  by_contra hn
  have : c ∈ cls := by simpa using hn
  rcases hc c this with h' | h'
  · rw [h'] at h1; simp at h1
  · exact h1.2.2.2 h'

theorem scanBase_unsigned (ru : Bool × Str × Str × Str) (hu : ru.1 = false) (b f : Char) (ds r : Str)
    (hb : b ∈ ru.2.1) (hf : f ∈ ru.2.2.1) (hds : ∀ c ∈ ds, c ∈ ru.2.2.2)
    (hc : ∀ x ∈ ru.2.2.2, isIdChar x = true ∨ x = '?') (hr : Delim r) :
    scanBase ru (b :: f :: (ds ++ r)) = some (b :: f :: ds, r) := by
  have ht := takeWhile_stop (fun c => decide (c ∈ ru.2.2.2)) ds r (by simpa using hds) (hr.cls _ hc)
  simp [scanBase, hu, optChar, hb, hf, ht.1, ht.2]

theorem scanBase_signed (ru : Bool × Str × Str × Str) (hu : ru.1 = true) (s b f : Char) (ds r : Str)
    (hs : s = 's' ∨ s = 'S') (hb : b ∈ ru.2.1) (hf : f ∈ ru.2.2.1) (hds : ∀ c ∈ ds, c ∈ ru.2.2.2)
    (hc : ∀ x ∈ ru.2.2.2, isIdChar x = true ∨ x = '?') (hr : Delim r) :
    scanBase ru (s :: b :: f :: (ds ++ r)) = some (s :: b :: f :: ds, r) := by
  have ht := takeWhile_stop (fun c => decide (c ∈ ru.2.2.2)) ds r (by simpa using hds) (hr.cls _ hc)
  rcases hs with rfl | rfl <;> simp [scanBase, hu, optChar, hb, hf, ht.1, ht.2]

theorem scanBase_base (ru : Bool × Str × Str × Str) (hu : ru.1 = false) (b f : Char) (t : Str) (hb : b ∉ ru.2.1) :
    scanBase ru (b :: f :: t) = none := by
  simp [scanBase, hu, optChar, hb]

theorem scanBase_sign (ru : Bool × Str × Str × Str) (hu : ru.1 = true) (b : Char) (t : Str)
    (hb : b ≠ 's' ∧ b ≠ 'S') : scanBase ru (b :: t) = none := by
  simp [scanBase, hu, optChar, hb.1, hb.2]

theorem scanBase_sbase (ru : Bool × Str × Str × Str) (hu : ru.1 = true) (s b f : Char) (t : Str)
    (hb : b ∉ ru.2.1) : scanBase ru (s :: b :: f :: t) = none := by
  by_cases h : s = 's' ∨ s = 'S'
  · rcases h with rfl | rfl <;> simp [scanBase, hu, optChar, hb]
  · push Not at h; simp [scanBase, hu, optChar, h]

theorem findSome_at {α β : Type} (g : α → Option β) (l1 : List α) (a : α) (l2 : List α) (x : β)
    (h1 : ∀ b ∈ l1, g b = none) (h2 : g a = some x) : (l1 ++ a :: l2).findSome? g = some x := by
  induction l1 with
  | nil => simp [h2]
  | cons b l1 ih =>
    have hb := h1 b (by simp)
    have := ih (fun c hc => h1 c (by simp [hc]))
    simp [hb, this]

theorem bd_b {b c : Char} (h : baseDigit b c) (hb : b ∈ ['b', 'B']) : c ∈ "01xXzZ?".toList := by
  simp only [List.mem_cons, List.not_mem_nil, or_false] at hb
  rcases h with h | h | h | h
  · exact h.2
  all_goals (exfalso; have h1 := h.1; rcases hb with rfl | rfl <;> revert h1 <;> decide)

theorem bd_o {b c : Char} (h : baseDigit b c) (hb : b ∈ ['o', 'O']) : c ∈ "01234567xXzZ?".toList := by
  simp only [List.mem_cons, List.not_mem_nil, or_false] at hb
  rcases h with h | h | h | h
  pick_goal 2
  · exact h.2
  all_goals (exfalso; have h1 := h.1; rcases hb with rfl | rfl <;> revert h1 <;> decide)

theorem bd_h {b c : Char} (h : baseDigit b c) (hb : b ∈ ['h', 'H']) : c ∈ "0123456789abcdefABCDEFxXzZ?".toList := by
  simp only [List.mem_cons, List.not_mem_nil, or_false] at hb
  rcases h with h | h | h | h
  pick_goal 3
  · exact h.2
  all_goals (exfalso; have h1 := h.1; rcases hb with rfl | rfl <;> revert h1 <;> decide)

theorem bd_d {b c : Char} (h : baseDigit b c) (hb : b ∈ ['d', 'D']) : c ∈ "0123456789xXzZ?".toList := by
  simp only [List.mem_cons, List.not_mem_nil, or_false] at hb
  rcases h with h | h | h | h
  pick_goal 4
  · exact h.2
  all_goals (exfalso; have h1 := h.1; rcases hb with rfl | rfl <;> revert h1 <;> decide)

theorem us_b {b c : Char} (h : baseDigit b c ∨ c = '_') (hb : b ∈ ['b', 'B']) : c ∈ "01xXzZ?_".toList := by
  rcases h with h | rfl
  · have h1 := bd_b h hb; revert h1 c; intro c _ h1; exact (by decide : ∀ x ∈ "01xXzZ?".toList, x ∈ "01xXzZ?_".toList) c h1
  · decide
theorem us_o {b c : Char} (h : baseDigit b c ∨ c = '_') (hb : b ∈ ['o', 'O']) : c ∈ "01234567xXzZ?_".toList := by
  rcases h with h | rfl
  · exact (by decide : ∀ x ∈ "01234567xXzZ?".toList, x ∈ "01234567xXzZ?_".toList) c (bd_o h hb)
  · decide
theorem us_h {b c : Char} (h : baseDigit b c ∨ c = '_') (hb : b ∈ ['h', 'H']) :
    c ∈ "0123456789abcdefABCDEFxXzZ?_".toList := by
  rcases h with h | rfl
  · exact (by decide : ∀ x ∈ "0123456789abcdefABCDEFxXzZ?".toList, x ∈ "0123456789abcdefABCDEFxXzZ?_".toList) c (bd_h h hb)
  · decide
theorem us_d {b c : Char} (h : baseDigit b c ∨ c = '_') (hb : b ∈ ['d', 'D']) : c ∈ "0123456789xXzZ?_".toList := by
  rcases h with h | rfl
  · exact (by decide : ∀ x ∈ "0123456789xXzZ?".toList, x ∈ "0123456789xXzZ?_".toList) c (bd_d h hb)
  · decide

theorem baseDigit_base {b f : Char} (hf : baseDigit b f) :
    b ∈ ['b', 'B'] ∨ b ∈ ['o', 'O'] ∨ b ∈ ['h', 'H'] ∨ b ∈ ['d', 'D'] := by
  rcases hf with h | h | h | h
  · exact Or.inl h.1
  · exact Or.inr (Or.inl h.1)
  · exact Or.inr (Or.inr (Or.inl h.1))
  · exact Or.inr (Or.inr (Or.inr h.1))

/-- A rule whose base letters are not `b` does not match. -/
theorem scanBase_none_unsigned (ru : Bool × Str × Str × Str) (b f : Char) (t : Str) (hbs : b ≠ 's' ∧ b ≠ 'S')
    (h : ru.1 = true ∨ b ∉ ru.2.1) : scanBase ru (b :: f :: t) = none := by
  cases hu : ru.1 with
  | true => exact scanBase_sign ru hu b _ hbs
  | false => rw [hu] at h; exact scanBase_base ru hu b f t (by simpa using h)

theorem scanBase_none_signed (ru : Bool × Str × Str × Str) (s b f : Char) (t : Str) (hs : s = 's' ∨ s = 'S')
    (h : (ru.1 = true ∧ b ∉ ru.2.1) ∨ (ru.1 = false ∧ 's' ∉ ru.2.1 ∧ 'S' ∉ ru.2.1)) :
    scanBase ru (s :: b :: f :: t) = none := by
  rcases h with ⟨hu, hb⟩ | ⟨hu, h1, h2⟩
  · exact scanBase_sbase ru hu s b f t hb
  · exact scanBase_base ru hu s b _ (by rcases hs with rfl | rfl <;> assumption)

/-- The integer rules on a based literal. -/
theorem intRules_hit (sg : Str) (b f : Char) (ds r : Str) (hsg : sg = [] ∨ sg = ['s'] ∨ sg = ['S'])
    (hf : baseDigit b f) (hds : ∀ c ∈ ds, baseDigit b c ∨ c = '_') (hX : ¬ (sg ≠ [] ∧ b ∈ ['b', 'B'] ∧ f = 'X'))
    (hr : Delim r) :
    intRules.findSome? (fun ru => scanBase ru (sg ++ b :: f :: (ds ++ r))) = some (sg ++ b :: f :: ds, r) := by
  have hbs : b ≠ 's' ∧ b ≠ 'S' := by
    have hb := baseDigit_base hf
    refine ⟨?_, ?_⟩ <;> (rintro rfl; revert hb; decide)
  rcases hsg with rfl | hsg
  · simp only [List.nil_append]
    rcases baseDigit_base hf with hb | hb | hb | hb
    · refine findSome_at _ (intRules.take 1) _ (intRules.drop 2) _ ?_ ?_
      · intro ru hru
        refine scanBase_none_unsigned ru b f _ hbs ?_
        exact (by decide : ∀ b ∈ ['b', 'B'], ∀ ru ∈ intRules.take 1, ru.1 = true ∨ b ∉ ru.2.1) b hb ru hru
      · exact scanBase_unsigned _ rfl _ _ _ _ hb (bd_b hf hb) (fun c hc => us_b (hds c hc) hb) (by decide) hr
    · refine findSome_at _ (intRules.take 3) _ (intRules.drop 4) _ ?_ ?_
      · intro ru hru
        refine scanBase_none_unsigned ru b f _ hbs ?_
        exact (by decide : ∀ b ∈ ['o', 'O'], ∀ ru ∈ intRules.take 3, ru.1 = true ∨ b ∉ ru.2.1) b hb ru hru
      · exact scanBase_unsigned _ rfl _ _ _ _ hb (bd_o hf hb) (fun c hc => us_o (hds c hc) hb) (by decide) hr
    · refine findSome_at _ (intRules.take 5) _ (intRules.drop 6) _ ?_ ?_
      · intro ru hru
        refine scanBase_none_unsigned ru b f _ hbs ?_
        exact (by decide : ∀ b ∈ ['h', 'H'], ∀ ru ∈ intRules.take 5, ru.1 = true ∨ b ∉ ru.2.1) b hb ru hru
      · exact scanBase_unsigned _ rfl _ _ _ _ hb (bd_h hf hb) (fun c hc => us_h (hds c hc) hb) (by decide) hr
    · refine findSome_at _ (intRules.take 7) _ (intRules.drop 8) _ ?_ ?_
      · intro ru hru
        refine scanBase_none_unsigned ru b f _ hbs ?_
        exact (by decide : ∀ b ∈ ['d', 'D'], ∀ ru ∈ intRules.take 7, ru.1 = true ∨ b ∉ ru.2.1) b hb ru hru
      · exact scanBase_unsigned _ rfl _ _ _ _ hb (bd_d hf hb) (fun c hc => us_d (hds c hc) hb) (by decide) hr
  · obtain ⟨s, rfl, hs⟩ : ∃ s, sg = [s] ∧ (s = 's' ∨ s = 'S') := by
      rcases hsg with rfl | rfl
      · exact ⟨_, rfl, Or.inl rfl⟩
      · exact ⟨_, rfl, Or.inr rfl⟩
    simp only [List.cons_append, List.nil_append]
    rcases baseDigit_base hf with hb | hb | hb | hb
    · refine findSome_at _ (intRules.take 0) _ (intRules.drop 1) _ ?_ ?_
      · simp
      · refine scanBase_signed _ rfl _ _ _ _ _ hs hb ?_ (fun c hc => us_b (hds c hc) hb) (by decide) hr
        have hx : f ≠ 'X' := fun h => hX ⟨by simp, hb, h⟩
        exact (by decide : ∀ x ∈ "01xXzZ?".toList, x ≠ 'X' → x ∈ "01xZz?".toList) f (bd_b hf hb) hx
    · refine findSome_at _ (intRules.take 2) _ (intRules.drop 3) _ ?_ ?_
      · intro ru hru
        refine scanBase_none_signed ru s b f _ hs ?_
        exact (by decide : ∀ b ∈ ['o', 'O'], ∀ ru ∈ intRules.take 2, (ru.1 = true ∧ b ∉ ru.2.1) ∨ (ru.1 = false ∧ 's' ∉ ru.2.1 ∧ 'S' ∉ ru.2.1)) b hb ru hru
      · exact scanBase_signed _ rfl _ _ _ _ _ hs hb (bd_o hf hb) (fun c hc => us_o (hds c hc) hb) (by decide) hr
    · refine findSome_at _ (intRules.take 4) _ (intRules.drop 5) _ ?_ ?_
      · intro ru hru
        refine scanBase_none_signed ru s b f _ hs ?_
        exact (by decide : ∀ b ∈ ['h', 'H'], ∀ ru ∈ intRules.take 4, (ru.1 = true ∧ b ∉ ru.2.1) ∨ (ru.1 = false ∧ 's' ∉ ru.2.1 ∧ 'S' ∉ ru.2.1)) b hb ru hru
      · exact scanBase_signed _ rfl _ _ _ _ _ hs hb (bd_h hf hb) (fun c hc => us_h (hds c hc) hb) (by decide) hr
    · refine findSome_at _ (intRules.take 6) _ (intRules.drop 7) _ ?_ ?_
      · intro ru hru
        refine scanBase_none_signed ru s b f _ hs ?_
        exact (by decide : ∀ b ∈ ['d', 'D'], ∀ ru ∈ intRules.take 6, (ru.1 = true ∧ b ∉ ru.2.1) ∨ (ru.1 = false ∧ 's' ∉ ru.2.1 ∧ 'S' ∉ ru.2.1)) b hb ru hru
      · exact scanBase_signed _ rfl _ _ _ _ _ hs hb (bd_d hf hb) (fun c hc => us_d (hds c hc) hb) (by decide) hr

theorem IntLit.scan {s : Str} (h : IntLit s) (r : Str) (hr : Delim r) : lexTok (s ++ r) = some (some (.int s), r) := by
  cases h with
  | dec d ds hd hds =>
    have hne := isDig_ne hd
    have hall : ∀ c, ((d :: ds ++ r).dropWhile isDig).head? = some c → c ≠ '.' ∧ c ≠ 'e' ∧ c ≠ 'E' ∧ c ≠ '\'' := by
      simp only [List.cons_append, List.dropWhile_cons, hd, if_true]
      clear hd hne
      induction ds with
      | nil =>
        intro c hc
        have hr' := takeWhile_stop isDig [] r (by simp) hr.dig
        simp only [List.nil_append] at hr' hc
        rw [hr'.2] at hc
        have := hr c hc
        refine ⟨this.2.2.1, ?_, ?_, this.2.1⟩ <;> (rintro rfl; have h1 := this.1; revert h1; decide)
      | cons a t ih =>
        intro c hc
        by_cases ha : isDig a = true
        · simp only [List.cons_append, List.dropWhile_cons, ha, if_true] at hc
          exact ih (fun c hc => hds c (by simp [hc])) c hc
        · have hau : a = '_' := by rcases hds a (by simp) with h | h; exact absurd h ha; exact h
          simp only [List.cons_append, List.dropWhile_cons, ha] at hc
          simp at hc
          subst hc; subst hau; decide
    apply lexTok_int
    · exact scanSkip_none d _ hne.1 hne.2.1
    · simp [hne.2.2.1]
    · exact scanFloat_none _ (fun c hc => ⟨(hall c hc).1, (hall c hc).2.1, (hall c hc).2.2.1⟩)
    · unfold scanInt
      have hb : scanBased (d :: (ds ++ r)) = none := by
        unfold scanBased
        split
        · next r' he => have := (hall '\'' (by rw [List.cons_append, he]; rfl)).2.2.2; simp at this
        · rfl
      have ht := takeWhile_stop (fun c => isDig c || c == '_') ds r (by intro c hc; simpa using hds c hc) (by
        intro c hc
        have h1 := hr.dig c hc
        have h2 := (hr c hc).1
        have h3 : c ≠ '_' := by rintro rfl; revert h2; decide
        simp [h1, h3])
      simp only [List.cons_append, hb, hd, if_true, ht.1, ht.2]
  | based size sg b f ds hsz hsg hf hds hX =>
    have hq := takeWhile_stop isDig size ('\'' :: (sg ++ b :: f :: ds) ++ r) hsz (by
      intro c hc; simp at hc; subst hc; rfl)
    have hassoc : size ++ '\'' :: (sg ++ b :: f :: ds) ++ r = size ++ ('\'' :: (sg ++ b :: f :: ds) ++ r) := by simp
    rw [hassoc]
    have hhd : ∀ c, (size ++ ('\'' :: (sg ++ b :: f :: ds) ++ r)).head? = some c → isDig c = true ∨ c = '\'' := by
      intro c hc
      cases size with
      | nil => simp at hc; exact Or.inr hc.symm
      | cons a t => simp at hc; subst hc; exact Or.inl (hsz a (by simp))
    apply lexTok_int
    · cases hcs : size ++ ('\'' :: (sg ++ b :: f :: ds) ++ r) with
      | nil => rfl
      | cons c t =>
        rcases hhd c (by rw [hcs]; rfl) with h | h
        · have := isDig_ne h; exact scanSkip_none c t this.1 this.2.1
        · subst h; exact scanSkip_none _ t (by decide) (by decide)
    · intro hc
      rcases hhd _ hc with h | h
      · exact absurd h (by decide)
      · exact absurd h (by decide)
    · refine scanFloat_none _ ?_
      rw [hq.2]
      intro c hc
      simp at hc; subst hc; decide
    · have hh := intRules_hit sg b f ds r hsg hf hds hX hr
      have he : sg ++ b :: f :: (ds ++ r) = (sg ++ b :: f :: ds) ++ r := by simp
      rw [he] at hh
      unfold scanInt scanBased
      rw [hq.1, hq.2]
      simp only [List.cons_append]
      rw [hh]
      simp


theorem ExpPart.scan {x : Str} (h : ExpPart x) (r : Str) (hr : ∀ c, r.head? = some c → isDig c = false) :
    scanExp (x ++ r) = some (x, r) := by
  obtain ⟨e, sg, ds, rfl, he, hsg, hne, hds⟩ := h
  have ht := takeWhile_stop isDig ds r hds hr
  obtain ⟨d, ds', rfl⟩ := List.exists_cons_of_ne_nil hne
  have hd := isDig_ne (hds d (by simp))
  have hdm : d ≠ '-' ∧ d ≠ '+' := by
    have := hds d (by simp)
    refine ⟨?_, ?_⟩ <;> (rintro rfl; revert this; decide)
  rcases hsg with rfl | rfl | rfl
  · simp only [List.nil_append, List.cons_append] at ht ⊢
    simp [scanExp, he, optChar, hdm.1, hdm.2, ht.1, ht.2]
  · simp only [List.nil_append, List.cons_append] at ht ⊢
    simp [scanExp, he, optChar, ht.1, ht.2]
  · simp only [List.nil_append, List.cons_append] at ht ⊢
    simp [scanExp, he, optChar, ht.1, ht.2]

theorem scanExp_delim (r : Str) (hr : Delim r) : scanExp r = none := by
  cases r with
  | nil => rfl
  | cons c r =>
    have h := (hr c rfl).1
    have h1 : c ≠ 'e' := by rintro rfl; revert h; decide
    have h2 : c ≠ 'E' := by rintro rfl; revert h; decide
    simp [scanExp, h1, h2]

theorem ExpPart.head {x : Str} (h : ExpPart x) (r : Str) : ∀ c, (x ++ r).head? = some c → isDig c = false ∧ c ≠ '.' := by
  obtain ⟨e, sg, ds, rfl, he, _⟩ := h
  intro c hc
  simp at hc
  subst hc
  rcases he with rfl | rfl <;> decide

theorem lexTok_float (s s' r' : Str) (h1 : scanSkip s = none) (h2 : s.head? ≠ some '"')
    (h3 : scanFloat s = some (s', r')) : lexTok s = some (some (.flt s'), r') := by
  simp only [lexTok, h1, h3, scanQuoted_none s h2]

theorem FloatLit.head {s : Str} (h : FloatLit s) (r : Str) :
    ∃ c t, s ++ r = c :: t ∧ (isDig c = true ∨ c = '.') := by
  cases h with
  | frac d f x hd hf hne hx =>
    cases d with
    | nil => exact ⟨_, _, rfl, Or.inr rfl⟩
    | cons a t => exact ⟨_, _, rfl, Or.inl (hd a (by simp))⟩
  | expo d x hd hne hx =>
    cases d with
    | nil => exact absurd rfl hne
    | cons a t => exact ⟨_, _, rfl, Or.inl (hd a (by simp))⟩

theorem FloatLit.scan {s : Str} (h : FloatLit s) (r : Str) (hr : Delim r) : lexTok (s ++ r) = some (some (.flt s), r) := by
  have hhd := h.head r
  obtain ⟨c, t, hct, hc⟩ := hhd
  have hc' : c ≠ '`' ∧ c ≠ '/' ∧ c ≠ '"' := by
    rcases hc with hc | rfl
    · have := isDig_ne hc; exact ⟨this.1, this.2.1, this.2.2.1⟩
    · decide
  apply lexTok_float
  · rw [hct]; exact scanSkip_none c t hc'.1 hc'.2.1
  · rw [hct]; simp [hc'.2.2]
  · clear hct hc hc'
    cases h with
    | frac d f x hd hf hne hx =>
      have e1 : d ++ '.' :: (f ++ x) ++ r = d ++ ('.' :: (f ++ (x ++ r))) := by simp
      rw [e1]
      have ht := takeWhile_stop isDig d ('.' :: (f ++ (x ++ r))) hd (by intro c hc; simp at hc; subst hc; rfl)
      have ht2 := takeWhile_stop isDig f (x ++ r) hf (by
        rcases hx with rfl | hx
        · simpa using hr.dig
        · exact fun c hc => (hx.head r c hc).1)
      unfold scanFloat
      rw [ht.1, ht.2]
      simp only [ht2.1, ht2.2]
      rw [if_neg hne]
      rcases hx with rfl | hx
      · simp only [List.nil_append, scanExp_delim r hr, List.append_nil]
      · simp only [hx.scan r hr.dig]
        simp
    | expo d x hd hne hx =>
      have e1 : d ++ x ++ r = d ++ (x ++ r) := by simp
      rw [e1]
      have ht := takeWhile_stop isDig d (x ++ r) hd (fun c hc => (hx.head r c hc).1)
      unfold scanFloat
      rw [ht.1, ht.2]
      simp only
      split
      · next r' he => have := (hx.head r '.' (by rw [he]; rfl)).2; simp at this
      · rw [if_neg hne, hx.scan r hr.dig]; rfl

theorem StrBody.scan {s : Str} (h : StrBody s) (r : Str) : scanStr (s ++ '"' :: r) = some (s, r) := by
  induction h with
  | nil => rfl
  | chr c s h1 h2 h3 _ ih =>
    rw [List.cons_append, scanStr]
    · rw [ih]; rfl
    · exact h1
    · exact h3
    · intro d r' hc; exact absurd hc h2
    · intro hc; exact absurd hc h2
  | esc c s hc _ ih =>
    rw [List.cons_append, List.cons_append, scanStr, if_pos hc, ih]
    rfl

theorem lexTok_str {s : Str} (h : StrBody s) (r : Str) :
    lexTok ('"' :: s ++ ['"'] ++ r) = some (some (.str ('"' :: s ++ ['"'])), r) := by
  have e : '"' :: s ++ ['"'] ++ r = '"' :: (s ++ '"' :: r) := by simp
  rw [e]
  have h1 : scanSkip ('"' :: (s ++ '"' :: r)) = none := scanSkip_none _ _ (by decide) (by decide)
  have h2 : scanQuoted ('"' :: (s ++ '"' :: r)) = some (s, r) := h.scan r
  simp only [lexTok, h1, h2]

theorem isIdStart_ne {c : Char} (h : isIdStart c = true) :
    c ≠ '`' ∧ c ≠ '/' ∧ c ≠ '"' ∧ c ≠ '.' ∧ isDig c = false ∧ c ≠ '\'' ∧ c ≠ ' ' ∧ c ≠ '\t' ∧ c ≠ '(' ∧ c ≠ '\\' := by
  refine ⟨?_, ?_, ?_, ?_, ?_, ?_, ?_, ?_, ?_, ?_⟩
  pick_goal 5
  · cases hd : isDig c with
    | false => rfl
    | true =>
      exfalso
      simp only [isIdStart, isLet, isDig, Bool.or_eq_true, Bool.and_eq_true, decide_eq_true_eq, beq_iff_eq,
        Char.le_def, UInt32.le_iff_toNat_le] at h hd
      have e0 : ('0' : Char).val.toNat = 48 := rfl
      have e9 : ('9' : Char).val.toNat = 57 := rfl
      have ea : ('a' : Char).val.toNat = 97 := rfl
      have eA : ('A' : Char).val.toNat = 65 := rfl
      have ez : ('z' : Char).val.toNat = 122 := rfl
      have eZ : ('Z' : Char).val.toNat = 90 := rfl
      rcases h with (h | h) | h
      · omega
      · omega
      · subst h; revert hd; decide
  all_goals (rintro rfl; revert h; decide)

theorem scanInt_none (c : Char) (t : Str) (h1 : isDig c = false) (h2 : c ≠ '\'') : scanInt (c :: t) = none := by
  have hb : scanBased (c :: t) = none := by
    unfold scanBased
    simp only [List.dropWhile_cons, h1]
    split
    · next he => simp at he; exact absurd he.1 h2
    · rfl
  simp [scanInt, hb, h1]

theorem scanFloat_none' (c : Char) (t : Str) (h1 : isDig c = false) (h2 : c ≠ '.') : scanFloat (c :: t) = none := by
  unfold scanFloat
  simp only [List.dropWhile_cons, List.takeWhile_cons, h1]
  split
  · next he => simp at he; exact absurd he.1 h2
  · simp

theorem lexTok_id (c : Char) (t s' r' : Str) (hc : isIdStart c = true ∨ c = '\\')
    (h4 : scanId (c :: t) = some (s', r')) (hr : s' ∉ reservedWords) :
    lexTok (c :: t) = some (some (.id s'), r') := by
  have hne : c ≠ '`' ∧ c ≠ '/' ∧ c ≠ '"' ∧ c ≠ '.' ∧ isDig c = false ∧ c ≠ '\'' := by
    rcases hc with hc | rfl
    · have := isIdStart_ne hc; exact ⟨this.1, this.2.1, this.2.2.1, this.2.2.2.1, this.2.2.2.2.1, this.2.2.2.2.2.1⟩
    · decide
  simp only [lexTok, scanSkip_none c t hne.1 hne.2.1, scanQuoted_none (c :: t) (by simp [hne.2.2.1]),
    scanFloat_none' c t hne.2.2.2.2.1 hne.2.2.2.1, scanInt_none c t hne.2.2.2.2.1 hne.2.2.2.2.2, h4, if_neg hr]

theorem PlainId.scan {n : Str} (h : PlainId n) (r : Str) (hr : ∀ c, r.head? = some c → isIdChar c = false) :
    lexTok (n ++ r) = some (some (.id n), r) := by
  obtain ⟨⟨c, t, rfl, hc, ht⟩, hres⟩ := h
  have hs := takeWhile_stop isIdChar t r ht hr
  rw [List.cons_append]
  apply lexTok_id _ _ _ _ (Or.inl hc)
  · simp [scanId, hc, hs.1, hs.2]
  · exact hres

/-- A reserved word after `$` (lexer.py:251-254): `$signed`. -/
theorem lexTok_signed (r : Str) (hr : ∀ c, r.head? = some c → isIdChar c = false) :
    lexTok ("signed".toList ++ r) = some (some (.kw "signed".toList), r) := by
  have hs := takeWhile_stop isIdChar "igned".toList r (by decide) hr
  have h4 : scanId ("signed".toList ++ r) = some ("signed".toList, r) := by
    have e : "signed".toList ++ r = 's' :: ("igned".toList ++ r) := rfl
    rw [e]
    simp only [scanId, show isIdStart 's' = true from rfl, if_true, hs.1, hs.2]
    rfl
  have e : "signed".toList ++ r = 's' :: ("igned".toList ++ r) := rfl
  rw [e] at h4 ⊢
  have hm : "signed".toList ∈ reservedWords := by decide
  simp only [lexTok, scanSkip_none 's' _ (by decide) (by decide), scanQuoted_none ('s' :: ("igned".toList ++ r)) (by simp),
    scanFloat_none' 's' _ (by decide) (by decide), scanInt_none 's' _ (by decide) (by decide), h4, if_pos hm]

theorem EscId.reserved {n : Str} (h : EscId n) : n ∉ reservedWords := by
  obtain ⟨r, rfl, _⟩ := h
  intro hm
  have : ∀ w ∈ reservedWords, w.head? ≠ some '\\' := by decide
  exact this _ hm rfl

theorem EscId.scan {n : Str} (h : EscId n) (r : Str) : lexTok (n ++ ' ' :: r) = some (some (.id n), ' ' :: r) := by
  have hres := h.reserved
  obtain ⟨t, rfl, hne, ht⟩ := h
  have hs := takeWhile_stop (fun c => !isSp c) t (' ' :: r) (by intro c hc; simp [ht c hc]) (by
    intro c hc; simp at hc; subst hc; rfl)
  rw [List.cons_append]
  apply lexTok_id _ _ _ _ (Or.inr rfl)
  · have h0 : isIdStart '\\' = false := rfl
    simp only [scanId, h0, hs.1, hs.2]
    simp [hne]
  · exact hres

end Pyv
