import Verif.HierName
import Verif.Props.FrameTree
import Verif.Props.GenProps
import Mathlib.Data.List.Perm.Subperm
/-
  C86: a hierarchical name stands for the scope it names.
-/
namespace Pyv

/-! ### Specification -/

/-- A scope that is part of no name: generate regions, loop turns, alternatives, procedures. -/
def ScopeLabel.silent (l : ScopeLabel) : Bool := l.type.unprint

/-- The path of labels `ls` (from a module down to a scope) is described by the steps `name` or `name[index]`.  A scope with
a name takes one step; an index selects the turn of the loop around the scope of that name; the other silent scopes are
passed over.  A loop turn can only be passed over if `loose`, and if no index is pending. -/
inductive NamedBy (loose : Bool) : ScopeChain → List (Str × Option Int) → Prop
  | done : NamedBy loose [] []
  | name {l ls n rest} : l.silent = false → l.name = n → l.loop = none → NamedBy loose ls rest → NamedBy loose (l :: ls) ((n, none) :: rest)
  | turn {l ls n v rest} : l.type = .for_ → l.loop = some v → NamedBy loose ls ((n, none) :: rest) →
      NamedBy loose (l :: ls) ((n, some v) :: rest)
  | pass {l ls n i rest} : l.silent = true → (l.type = .for_ → loose = true ∧ i = none) → NamedBy loose ls ((n, i) :: rest) →
      NamedBy loose (l :: ls) ((n, i) :: rest)

theorem NamedBy.loosen {b ls ss} (h : NamedBy b ls ss) : NamedBy true ls ss := by
  induction h with
  | done => exact .done
  | name a b c _ ih => exact .name a b c ih
  | turn a b _ ih => exact .turn a b ih
  | pass a b _ ih => exact .pass a (fun h => ⟨rfl, (b h).2⟩) ih

/-! ### The labels of the target -/

/-- The labels `toScopeChain` makes. -/
def stepLabels : List (Str × Option Int) → ScopeChain
  | [] => []
  | (n, none) :: r => ⟨n, .any, none⟩ :: stepLabels r
  | (n, some v) :: r => ⟨"for".toList, .for_, some v⟩ :: ⟨n, .any, none⟩ :: stepLabels r

/-- A path of labels matches a target, as `searchMatchedScopeChain` matches them. -/
inductive LMatch : ScopeChain → ScopeChain → Prop
  | last {l t} : l.isPrintable = true → l.pyEq t = true → LMatch [l] [t]
  | step {l ls t ts} : l.isPrintable = true → l.pyEq t = true → LMatch ls ts → LMatch (l :: ls) (t :: ts)
  | turnLast {l t : ScopeLabel} : l.type = .for_ → t.type = .for_ → l.loop = t.loop → LMatch [l] [t]
  | turn {l : ScopeLabel} {ls t ts} : l.type = .for_ → t.type = .for_ → l.loop = t.loop → LMatch ls ts → LMatch (l :: ls) (t :: ts)
  | pass {l ls t ts} : l.isPrintable = false → ¬ (l.type = .for_ ∧ t.type = .for_) → LMatch ls (t :: ts) → LMatch (l :: ls) (t :: ts)

theorem isPrintable_iff (l : ScopeLabel) : l.isPrintable = !l.silent := by
  unfold ScopeLabel.isPrintable ScopeLabel.silent
  cases l.type <;> rfl

theorem LMatch.ne_nil {ls ts} (h : LMatch ls ts) : ls ≠ [] := by cases h <;> simp

theorem LMatch.ne_nil' {ls ts} (h : LMatch ls ts) : ts ≠ [] := by cases h <;> simp

/-- Below the module, the labels match exactly when the name describes the path loosely. -/
theorem lmatch_iff : ∀ (ls : ScopeChain) (ss : List (Str × Option Int)), (∀ l ∈ ls, l.type ≠ .any) → ss ≠ [] →
    (LMatch ls (stepLabels ss) ↔ NamedBy true ls ss) := by
  intro ls
  induction ls with
  | nil =>
    intro ss _ hss
    constructor
    · intro h; exact absurd rfl h.ne_nil
    · intro h; cases h; exact absurd rfl hss
  | cons l ls ih =>
    intro ss hty hss
    have ih := fun ss => ih ss (fun x hx => hty x (List.mem_cons_of_mem _ hx))
    match ss, hss with
    | (n, none) :: r, _ =>
      have e : stepLabels ((n, none) :: r) = ⟨n, .any, none⟩ :: stepLabels r := rfl
      have hp : l.pyEq ⟨n, .any, none⟩ = true ↔ l.name = n ∧ l.loop = none := by simp [ScopeLabel.pyEq]
      rw [e]
      constructor
      · intro h
        generalize hts : stepLabels r = ts at h
        cases h with
        | last h1 h2 =>
          have hr : r = [] := by
            match r, hts with
            | [], _ => rfl
            | (_, none) :: _, h => simp [stepLabels] at h
            | (_, some _) :: _, h => simp [stepLabels] at h
          subst hr
          exact .name (by rw [isPrintable_iff] at h1; simpa using h1) (hp.mp h2).1 (hp.mp h2).2 .done
        | step h1 h2 h3 =>
          have hr : r ≠ [] := by rintro rfl; rw [← hts] at h3; exact absurd rfl h3.ne_nil'
          exact .name (by rw [isPrintable_iff] at h1; simpa using h1) (hp.mp h2).1 (hp.mp h2).2 ((ih r hr).mp (by rw [hts]; exact h3))
        | turnLast _ h _ => simp at h
        | turn _ h _ _ => simp at h
        | pass h1 _ h3 =>
          exact .pass (by rw [isPrintable_iff] at h1; simpa using h1) (fun _ => ⟨rfl, rfl⟩) ((ih ((n, none) :: r) (by simp)).mp (by rw [e, hts]; exact h3))
      · intro h
        cases h with
        | name h1 h2 h3 h4 =>
          by_cases hr : r = []
          · subst hr
            cases h4
            exact .last (by rw [isPrintable_iff, h1]; rfl) (hp.mpr ⟨h2, h3⟩)
          · exact .step (by rw [isPrintable_iff, h1]; rfl) (hp.mpr ⟨h2, h3⟩) ((ih r hr).mpr h4)
        | pass h1 _ h3 => exact .pass (by rw [isPrintable_iff, h1]; rfl) (by simp) ((ih _ (by simp)).mpr h3)
    | (n, some v) :: r, _ =>
      have e : stepLabels ((n, some v) :: r) = ⟨"for".toList, .for_, some v⟩ :: stepLabels ((n, none) :: r) := rfl
      rw [e]
      constructor
      · intro h
        generalize hts : stepLabels ((n, none) :: r) = ts at h
        cases h with
        | last h1 h2 =>
          exfalso; simp [stepLabels] at hts
        | step h1 h2 _ =>
          exfalso
          simp only [ScopeLabel.pyEq, reduceCtorEq, or_false] at h2
          split at h2
          · rename_i hh; exact absurd hh (hty l List.mem_cons_self)
          · simp at h2
            rw [ScopeLabel.isPrintable, h2.2.1] at h1
            simp [ScopeType.print] at h1
        | turnLast _ _ _ => exfalso; simp [stepLabels] at hts
        | turn h1 _ h3 h4 => exact .turn h1 h3 ((ih _ (by simp)).mp (by rw [hts]; exact h4))
        | pass h1 h2 h3 =>
          refine .pass (by rw [isPrintable_iff] at h1; simpa using h1) (fun h => absurd ⟨h, rfl⟩ h2) ((ih ((n, some v) :: r) (by simp)).mp (by rw [e, hts]; exact h3))
      · intro h
        cases h with
        | turn h1 h2 h3 => exact .turn h1 rfl h2 ((ih _ (by simp)).mpr h3)
        | pass h1 h2 h3 => exact .pass (by rw [isPrintable_iff, h1]; rfl) (fun h => by simpa using h2 h.1) ((ih _ (by simp)).mpr h3)

/-! ### The search -/

section
variable {fr : Dict ScopeChain SFrame}

theorem ScopeTree.above (ht : ScopeTree fr) {c : ScopeChain} (hc : c ≠ []) : ∀ {ls : ScopeChain}, fr.has (c ++ ls) = true → fr.has c = true := by
  intro ls
  induction ls using List.reverseRecOn with
  | nil => simp
  | append_singleton ls l ih =>
    intro h
    rw [← List.append_assoc] at h
    exact ih (ht.parent _ _ h (by simp [hc]))

theorem ScopeTree.mem_next (ht : ScopeTree fr) {c f l} (hf : fr.get? c = some f) (h : fr.has (c ++ [l]) = true) : c ++ [l] ∈ f.next := by
  rw [ht.next c f hf, List.mem_filter]
  exact ⟨Dict.has_iff_key.mp h, by simp [childOf]⟩

theorem ScopeTree.next_child (ht : ScopeTree fr) {c f d} (hf : fr.get? c = some f) (h : d ∈ f.next) : ∃ l, d = c ++ [l] ∧ fr.has d = true := by
  rw [ht.next c f hf, List.mem_filter] at h
  obtain ⟨h1, h2⟩ := h
  simp only [childOf, Bool.and_eq_true, decide_eq_true_eq] at h2
  have hne : d ≠ [] := by rintro rfl; simp at h2
  refine ⟨d.getLast hne, ?_, Dict.has_iff_key.mpr h1⟩
  rw [← h2.1, List.dropLast_append_getLast]

theorem get_of_has {c} (h : fr.has c = true) : ∃ f, fr.get? c = some f := by
  rw [Dict.has_eq, Option.isSome_iff_exists] at h
  exact h

theorem searchNext_some {k l target} : ∀ {cs r}, firstMatch (fun c => searchMatched fr k c target) l cs = .ok (some r) →
    ∃ c ∈ cs, ∃ r', r = l :: r' ∧ searchMatched fr k c target = .ok (some r') := by
  intro cs
  induction cs with
  | nil => intro r h; simp [firstMatch] at h
  | cons c cs ih =>
    intro r h
    rw [firstMatch] at h
    obtain ⟨x, h1, h⟩ := bind_ok.mp h
    cases x with
    | some y =>
      simp only [ok_inj, Option.some.injEq] at h
      exact ⟨c, List.mem_cons_self, y, h.symm, h1⟩
    | none =>
      obtain ⟨d, hd, r', e, hr⟩ := ih h
      exact ⟨d, List.mem_cons_of_mem _ hd, r', e, hr⟩

theorem searchNext_none {k l target} : ∀ {cs}, firstMatch (fun c => searchMatched fr k c target) l cs = .ok none → ∀ c ∈ cs, searchMatched fr k c target = .ok none := by
  intro cs
  induction cs with
  | nil => intro _ c h; simp at h
  | cons c cs ih =>
    intro h d hd
    rw [firstMatch] at h
    obtain ⟨x, h1, h⟩ := bind_ok.mp h
    cases x with
    | some y => simp [ok_inj] at h
    | none =>
      rcases List.mem_cons.mp hd with e | hd
      · rw [e]; exact h1
      · exact ih h d hd

theorem searchNext_total {k l target} : ∀ {cs}, (∀ c ∈ cs, ∃ r, searchMatched fr k c target = .ok r) → ∃ r, firstMatch (fun c => searchMatched fr k c target) l cs = .ok r := by
  intro cs
  induction cs with
  | nil => intro _; exact ⟨_, by rw [firstMatch]⟩
  | cons c cs ih =>
    intro h
    obtain ⟨x, hx⟩ := h c List.mem_cons_self
    rw [firstMatch, hx, ok_bind]
    cases x with
    | some y => exact ⟨_, rfl⟩
    | none => exact ih (fun d hd => h d (List.mem_cons_of_mem _ hd))

/-- What the search does at a frame, told without its branches. -/
theorem searchMatched_cons (k : Nat) (b : ScopeChain) (l t : ScopeLabel) (ts : ScopeChain) {f} (hf : fr.get? (b ++ [l]) = some f) :
    (searchMatched fr (k + 1) (b ++ [l]) (t :: ts) = .ok none ∧ (∀ ls, ¬ LMatch (l :: ls) (t :: ts))) ∨
    (searchMatched fr (k + 1) (b ++ [l]) (t :: ts) = .ok (some [t]) ∧ ts = [] ∧ LMatch [l] [t]) ∨
    (∃ tt, tt ≠ [] ∧ tt.getLast? = (t :: ts).getLast? ∧ searchMatched fr (k + 1) (b ++ [l]) (t :: ts) = firstMatch (fun c => searchMatched fr k c tt) l f.next ∧
      ∀ ls, LMatch (l :: ls) (t :: ts) ↔ LMatch ls tt) := by
  have hget : fr.get (b ++ [l]) = .ok f := Dict.get_ok.mpr hf
  have hlast : (b ++ [l]).getLast? = some l := by simp
  rw [searchMatched.eq_def fr (k + 1) (b ++ [l]) (t :: ts)]
  simp only [hlast]
  by_cases hp : l.isPrintable = true
  · have hnf : l.type ≠ .for_ := by
      intro h; rw [ScopeLabel.isPrintable, h] at hp; simp [ScopeType.print] at hp
    rw [if_pos hp]
    by_cases he : l.pyEq t = true
    · rw [he, if_neg (by simp)]
      by_cases hts : ts = []
      · subst hts
        right; left
        exact ⟨by simp, rfl, .last hp he⟩
      · right; right
        refine ⟨ts, hts, ?_, ?_, ?_⟩
        · obtain ⟨x, xs, rfl⟩ := List.exists_cons_of_ne_nil hts
          rw [List.getLast?_cons_cons]
        · rw [if_neg hts, hget, ok_bind]
        · intro ls
          constructor
          · intro h
            cases h with
            | last _ _ => exact absurd rfl hts
            | step _ _ h => exact h
            | turnLast h _ _ => exact absurd h hnf
            | turn h _ _ _ => exact absurd h hnf
            | pass h _ _ => rw [hp] at h; simp at h
          · intro h; exact .step hp he h
    · left
      rw [if_pos (by simpa using he)]
      refine ⟨rfl, fun ls h => ?_⟩
      cases h with
      | last _ h => exact he h
      | step _ h _ => exact he h
      | turnLast h _ _ => exact absurd h hnf
      | turn h _ _ _ => exact absurd h hnf
      | pass h _ _ => rw [hp] at h; simp at h
  · rw [if_neg hp]
    have hp' : l.isPrintable = false := by simpa using hp
    by_cases hfor : l.type = .for_ ∧ t.type = .for_
    · rw [if_pos hfor]
      by_cases he : l.loop = t.loop
      · rw [if_neg (by simp [he])]
        by_cases hts : ts = []
        · subst hts
          right; left
          exact ⟨by simp, rfl, .turnLast hfor.1 hfor.2 he⟩
        · right; right
          refine ⟨ts, hts, ?_, ?_, ?_⟩
          · obtain ⟨x, xs, rfl⟩ := List.exists_cons_of_ne_nil hts
            rw [List.getLast?_cons_cons]
          · rw [if_neg hts, hget, ok_bind]
          · intro ls
            constructor
            · intro h
              cases h with
              | last h _ => exact absurd h hp
              | step h _ _ => exact absurd h hp
              | turnLast _ _ _ => exact absurd rfl hts
              | turn _ _ _ h => exact h
              | pass _ h _ => exact absurd hfor h
            · intro h; exact .turn hfor.1 hfor.2 he h
      · left
        rw [if_pos he]
        refine ⟨rfl, fun ls h => ?_⟩
        cases h with
        | last h _ => exact absurd h hp
        | step h _ _ => exact absurd h hp
        | turnLast _ _ h => exact he h
        | turn _ _ h _ => exact he h
        | pass _ h _ => exact absurd hfor h
    · rw [if_neg hfor]
      right; right
      refine ⟨t :: ts, by simp, rfl, by rw [hget, ok_bind], fun ls => ⟨?_, fun h => .pass hp' hfor h⟩⟩
      intro h
      cases h with
      | last h _ => exact absurd h hp
      | step h _ _ => exact absurd h hp
      | turnLast h1 h2 _ => exact absurd ⟨h1, h2⟩ hfor
      | turn h1 h2 _ _ => exact absurd ⟨h1, h2⟩ hfor
      | pass _ _ h => exact h

/-- What is found is a frame that matches. -/
theorem search_sound (ht : ScopeTree fr) : ∀ k b l target r, fr.has (b ++ [l]) = true → target ≠ [] → searchMatched fr k (b ++ [l]) target = .ok (some r) →
    ∃ ls, fr.has (b ++ l :: ls) = true ∧ LMatch (l :: ls) target ∧ ∃ t, target.getLast? = some t ∧ r = (l :: ls).dropLast ++ [t] := by
  intro k
  induction k with
  | zero => intro b l target r _ _ h; simp [searchMatched] at h
  | succ k ih =>
    intro b l target r hh hne h
    obtain ⟨t, ts, rfl⟩ := List.exists_cons_of_ne_nil hne
    obtain ⟨f, hf⟩ := get_of_has hh
    rcases searchMatched_cons k b l t ts hf with ⟨h1, _⟩ | ⟨h1, h2, h3⟩ | ⟨tt, htt, hlast, h1, h2⟩
    · rw [h1] at h; simp [ok_inj] at h
    · rw [h1, ok_inj, Option.some.injEq] at h
      subst h2
      exact ⟨[], hh, h3, t, rfl, by rw [← h]; rfl⟩
    · rw [h1] at h
      obtain ⟨c, hc, r', e, h⟩ := searchNext_some h
      obtain ⟨l', rfl, hc'⟩ := ht.next_child hf hc
      obtain ⟨ls, hk, hm, t', ht', hr⟩ := ih _ l' tt r' hc' htt h
      refine ⟨l' :: ls, by simpa using hk, (h2 _).mpr hm, t', by rw [← hlast]; exact ht', ?_⟩
      rw [e, hr]; rfl

/-- When nothing is found, no frame matches. -/
theorem search_complete (ht : ScopeTree fr) : ∀ k b l target, fr.has (b ++ [l]) = true → target ≠ [] → searchMatched fr k (b ++ [l]) target = .ok none →
    ∀ ls, fr.has (b ++ l :: ls) = true → ¬ LMatch (l :: ls) target := by
  intro k
  induction k with
  | zero => intro b l target _ _ h; simp [searchMatched] at h
  | succ k ih =>
    intro b l target hh hne h ls hls hm
    obtain ⟨t, ts, rfl⟩ := List.exists_cons_of_ne_nil hne
    obtain ⟨f, hf⟩ := get_of_has hh
    rcases searchMatched_cons k b l t ts hf with ⟨_, h1⟩ | ⟨h1, _, _⟩ | ⟨tt, htt, _, h1, h2⟩
    · exact h1 ls hm
    · rw [h1] at h; simp [ok_inj] at h
    · rw [h1] at h
      have hm' := (h2 ls).mp hm
      obtain ⟨l', ls, rfl⟩ := List.exists_cons_of_ne_nil hm'.ne_nil
      have hk : fr.has ((b ++ [l]) ++ [l'] ++ ls) = true := by simpa using hls
      have hc := ht.above (by simp) hk
      exact ih (b ++ [l]) l' tt hc htt (searchNext_none h _ (ht.mem_next hf hc)) ls (by simpa using hk) hm'

/-- The search ends. -/
theorem search_total (ht : ScopeTree fr) : ∀ k b l target, fr.has (b ++ [l]) = true → target ≠ [] →
    (∀ ls, fr.has (b ++ l :: ls) = true → ls.length < k) → ∃ r, searchMatched fr k (b ++ [l]) target = .ok r := by
  intro k
  induction k with
  | zero => intro b l target hh _ h; exact absurd (h [] hh) (by simp)
  | succ k ih =>
    intro b l target hh hne h
    obtain ⟨t, ts, rfl⟩ := List.exists_cons_of_ne_nil hne
    obtain ⟨f, hf⟩ := get_of_has hh
    rcases searchMatched_cons k b l t ts hf with ⟨h1, _⟩ | ⟨h1, _, _⟩ | ⟨tt, htt, _, h1, _⟩
    · exact ⟨_, h1⟩
    · exact ⟨_, h1⟩
    · rw [h1]
      refine searchNext_total (fun c hc => ?_)
      obtain ⟨l', rfl, hc'⟩ := ht.next_child hf hc
      refine ih _ l' tt hc' htt (fun ls hls => ?_)
      have := h (l' :: ls) (by simpa using hls)
      simpa using this

/-- No chain is longer than the number of the frames. -/
theorem ScopeTree.depth (ht : ScopeTree fr) {c : ScopeChain} (hc : fr.has c = true) : c.length ≤ fr.length := by
  have h1 : ∀ n, 1 ≤ n → n ≤ c.length → c.take n ∈ fr.map (·.1) := by
    intro n h1 h2
    rw [← Dict.has_iff_key]
    have hne : c.take n ≠ [] := by
      intro h; have := congrArg List.length h; rw [List.length_take, List.length_nil] at this; omega
    exact ht.above hne (ls := c.drop n) (by rw [List.take_append_drop]; exact hc)
  have h2 : ((List.range' 1 c.length).map (fun n => c.take n)).Nodup := by
    rw [List.nodup_map_iff_inj_on List.nodup_range']
    intro x hx y hy e
    rw [List.mem_range'_1] at hx hy
    have := congrArg List.length e
    rw [List.length_take, List.length_take] at this
    omega
  have h3 := (h2.subperm (l₂ := fr.map (·.1)) (by
    intro x hx
    obtain ⟨n, hn, rfl⟩ := List.mem_map.mp hx
    rw [List.mem_range'_1] at hn
    exact h1 n hn.1 (by omega))).length_le
  simpa using h3

end

/-! ### The module around, the indices -/

theorem moduleChain_last {b rest : ScopeChain} {m : ScopeLabel} (hm : m.type = .module) (hr : ∀ l ∈ rest, l.type ≠ .module) :
    moduleChain (b ++ m :: rest) = .ok (b ++ [m]) := by
  have h0 : moduleChain rest = .error .definition := by
    induction rest with
    | nil => rfl
    | cons l rest ih =>
      rw [moduleChain, ih (fun x hx => hr x (List.mem_cons_of_mem _ hx))]
      simp [hr l List.mem_cons_self]
  induction b with
  | nil => rw [List.nil_append, moduleChain, h0]; simp [hm]
  | cons l b ih => rw [List.cons_append, moduleChain, ih]; rfl

/-- The steps that are written: every index has its value. -/
def StepVals (ev : Ex → Py DF) : List (Str × Option Ex) → List (Str × Option Int) → Prop :=
  List.Forall₂ (fun a b => a.1 = b.1 ∧ ((a.2 = none ∧ b.2 = none) ∨ ∃ e v w x y, a.2 = some e ∧ b.2 = some v ∧ ev e = .ok (.ev (.int v) w x y)))

theorem toScopeChain_steps {ev : Ex → Py DF} {labels steps} (h : StepVals ev labels steps) : toScopeChain ev labels = .ok (stepLabels steps) := by
  induction h with
  | nil => rfl
  | @cons a b as bs h _ ih =>
    obtain ⟨n, i⟩ := a
    obtain ⟨n', i'⟩ := b
    obtain ⟨h1, h2⟩ := h
    simp only at h1 h2
    subst h1
    rcases h2 with ⟨rfl, rfl⟩ | ⟨e, v, w, x, y, rfl, rfl, he⟩
    · rw [toScopeChain, toScopeChain.indexLabels, ih]; rfl
    · rw [toScopeChain, toScopeChain.indexLabels, he, ih]; rfl

theorem lmatch_module {m : ScopeLabel} {ls : ScopeChain} {ss : List (Str × Option Int)} (hm : m.type = .module) (hty : ∀ l ∈ ls, l.type ≠ .any)
    (hss : ss ≠ []) : LMatch (m :: ls) (m :: stepLabels ss) ↔ NamedBy true ls ss := by
  rw [← lmatch_iff ls ss hty hss]
  have hts : stepLabels ss ≠ [] := by
    match ss, hss with
    | (_, none) :: _, _ => simp [stepLabels]
    | (_, some _) :: _, _ => simp [stepLabels]
  have hp : m.isPrintable = true := by simp [ScopeLabel.isPrintable, hm, ScopeType.print]
  have he : m.pyEq m = true := by simp [ScopeLabel.pyEq]
  constructor
  · intro h
    generalize stepLabels ss = ts at h hts
    cases h with
    | last _ _ => exact absurd rfl hts
    | step _ _ h => exact h
    | turnLast h _ _ => rw [hm] at h; simp at h
    | turn h _ _ _ => rw [hm] at h; simp at h
    | pass h _ _ => rw [hp] at h; simp at h
  · intro h; exact .step hp he h

/-- The last label of a name is a plain name. -/
theorem stepLabels_last {ss : List (Str × Option Int)} (h : ss ≠ []) : ∃ n i, ss.getLast? = some (n, i) ∧ (stepLabels ss).getLast? = some ⟨n, .any, none⟩ := by
  match ss, h with
  | [(n, none)], _ => exact ⟨n, none, rfl, rfl⟩
  | [(n, some v)], _ => exact ⟨n, some v, rfl, rfl⟩
  | (n, none) :: x :: r, _ =>
    obtain ⟨n', i', h1, h2⟩ := stepLabels_last (ss := x :: r) (by simp)
    refine ⟨n', i', by rw [List.getLast?_cons_cons]; exact h1, ?_⟩
    rw [stepLabels, List.getLast?_cons, h2]; rfl
  | (n, some v) :: x :: r, _ =>
    obtain ⟨n', i', h1, h2⟩ := stepLabels_last (ss := x :: r) (by simp)
    refine ⟨n', i', by rw [List.getLast?_cons_cons]; exact h1, ?_⟩
    rw [stepLabels, List.getLast?_cons, List.getLast?_cons, h2]; rfl

/-- The name of the last step is the name of the scope. -/
theorem NamedBy.last {b : Bool} {ls ss} (h : NamedBy b ls ss) : ∀ n i, ss.getLast? = some (n, i) → ∃ l, ls.getLast? = some l ∧ l.name = n ∧ l.loop = none := by
  induction h with
  | done => intro n i h; simp at h
  | @name l ls n rest _ h2 h3 h4 ih =>
    intro n' i' he
    cases rest with
    | nil =>
      cases h4
      simp only [List.getLast?_singleton, Option.some.injEq, Prod.mk.injEq] at he
      exact ⟨l, rfl, by rw [h2, he.1], h3⟩
    | cons x r =>
      rw [List.getLast?_cons_cons] at he
      obtain ⟨l', h5, h6⟩ := ih n' i' he
      exact ⟨l', by rw [List.getLast?_cons, h5]; rfl, h6⟩
  | @turn l ls n v rest _ _ h4 ih =>
    intro n' i' he
    have : ∃ i2, ((n, none) :: rest).getLast? = some (n', i2) := by
      cases rest with
      | nil => simp only [List.getLast?_singleton, Option.some.injEq, Prod.mk.injEq] at he ⊢; exact ⟨none, he.1, rfl⟩
      | cons x r => rw [List.getLast?_cons_cons] at he ⊢; exact ⟨i', he⟩
    obtain ⟨i2, he2⟩ := this
    obtain ⟨l', h5, h6⟩ := ih n' i2 he2
    exact ⟨l', by rw [List.getLast?_cons, h5]; rfl, h6⟩
  | @pass l ls n i rest _ _ h4 ih =>
    intro n' i' he
    obtain ⟨l', h5, h6⟩ := ih n' i' he
    exact ⟨l', by rw [List.getLast?_cons, h5]; rfl, h6⟩

/-- A chain with the type of its last label unknown. -/
def anyLast (ls : ScopeChain) : ScopeChain :=
  match ls.getLast? with
  | none => []
  | some l => ls.dropLast ++ [⟨l.name, .any, none⟩]

/-! ### C86 -/

section
variable {fr : Dict ScopeChain SFrame} {terms : Dict ScopeChain Term} {ev : Ex → Py DF} {labels : List (Str × Option Ex)}
  {steps : List (Str × Option Int)} {name : Str} {b rest : ScopeChain} {m : ScopeLabel}

/-- What a hierarchical name stands for: an error if no scope of the module is loosely named, otherwise the signal of such a
scope. -/
theorem searchScope_cases (ht : ScopeTree fr) (hm : m.type = .module) (hr : ∀ l ∈ rest, l.type ≠ .module) (hh : fr.has (b ++ [m]) = true)
    (hs : StepVals ev labels steps) (hne : labels ≠ []) :
    ((∀ ls, fr.has (b ++ m :: ls) = true → ¬ NamedBy true ls steps) ∧
      searchScopeTerminal fr terms ev (fr.length + 1) labels name (b ++ m :: rest) = .error .name) ∨
    (∃ ls, fr.has (b ++ m :: ls) = true ∧ NamedBy true ls steps ∧
      searchScopeTerminal fr terms ev (fr.length + 1) labels name (b ++ m :: rest) =
        if hasTermPy terms (b ++ m :: anyLast ls ++ [⟨name, .signal, none⟩]) then .ok (b ++ m :: anyLast ls ++ [⟨name, .signal, none⟩])
        else .error .definition) := by
  have hss : steps ≠ [] := by
    rintro rfl
    cases hs; exact hne rfl
  have hd : (b ++ [m]).drop ((b ++ [m]).length - 1) = [m] := by simp
  have htg : ([m] ++ stepLabels steps) ≠ [] := by simp
  obtain ⟨r, hr'⟩ := search_total ht (fr.length + 1) b m ([m] ++ stepLabels steps) hh htg (by
    intro ls hls
    have := ht.depth hls
    simp only [List.length_append, List.length_cons] at this
    omega)
  have hty : ∀ ls, fr.has (b ++ m :: ls) = true → ∀ l ∈ ls, l.type ≠ .any := by
    intro ls hls l hl
    exact ht.typed _ l hls (by simp [hl])
  have hrun : ∀ x, searchMatched fr (fr.length + 1) (b ++ [m]) ([m] ++ stepLabels steps) = .ok x →
      searchScopeTerminal fr terms ev (fr.length + 1) labels name (b ++ m :: rest) = (match x with
        | none => .error .name
        | some r =>
          let v := (b ++ [m]).dropLast ++ r ++ [⟨name, .signal, none⟩]
          if hasTermPy terms v then .ok v else .error .definition) := by
    intro x hx
    unfold searchScopeTerminal
    rw [moduleChain_last hm hr, ok_bind, toScopeChain_steps hs, ok_bind, hd, hx]
    cases x <;> rfl
  cases r with
  | none =>
    left
    refine ⟨fun ls hls hn => ?_, hrun none hr'⟩
    exact search_complete ht _ _ _ _ hh htg hr' ls hls ((lmatch_module hm (hty ls hls) hss).mpr hn)
  | some r =>
    right
    obtain ⟨ls, hls, hm', t, hlast, e⟩ := search_sound ht _ _ _ _ _ hh htg hr'
    have hn := (lmatch_module hm (hty ls hls) hss).mp hm'
    refine ⟨ls, hls, hn, ?_⟩
    rw [hrun _ hr']
    obtain ⟨n, i, h1, h2⟩ := stepLabels_last hss
    obtain ⟨l, h3, h4, _⟩ := hn.last n i h1
    have hv : (b ++ [m]).dropLast ++ r = b ++ m :: anyLast ls := by
      have h5 : ([m] ++ stepLabels steps).getLast? = some ⟨n, .any, none⟩ := by
        rw [List.getLast?_append, h2]; rfl
      rw [h5, Option.some.injEq] at hlast
      have hls0 : ls ≠ [] := by rintro rfl; simp at h3
      rw [List.dropLast_concat, e, ← hlast, anyLast, h3, List.dropLast_cons_of_ne_nil hls0]
      simp only [h4]
      rfl
    simp only [hv]

/-- Python compares the name with the unknown type as equal. -/
theorem anyLast_pyEq {ls : ScopeChain} {l} (hl : ls.getLast? = some l) (h : l.loop = none) (b c : ScopeChain) :
    ScopeChain.pyEq (b ++ ls ++ c) (b ++ anyLast ls ++ c) = true := by
  have refl : ∀ c : ScopeChain, ScopeChain.pyEq c c = true := by
    intro c
    induction c with
    | nil => rfl
    | cons x c ih => simp [ScopeChain.pyEq, ScopeLabel.pyEq, ih]
  have pre : ∀ (x y z : ScopeChain), ScopeChain.pyEq y z = true → ScopeChain.pyEq (x ++ y) (x ++ z) = true := by
    intro x y z hyz
    induction x with
    | nil => exact hyz
    | cons a x ih => simp [ScopeChain.pyEq, ScopeLabel.pyEq, ih]
  have e : ls = ls.dropLast ++ [l] := by
    have hne : ls ≠ [] := by rintro rfl; simp at hl
    rw [List.getLast?_eq_some_getLast hne, Option.some.injEq] at hl
    rw [← hl, List.dropLast_append_getLast]
  unfold anyLast
  rw [hl]
  simp only
  conv => lhs; arg 1; rw [e]
  rw [List.append_assoc, List.append_assoc, List.append_assoc, List.append_assoc]
  refine pre _ _ _ (pre _ _ _ ?_)
  simp [ScopeChain.pyEq, ScopeLabel.pyEq, h, refl]

theorem anyLast_pyEq' {ls : ScopeChain} {l} (hl : ls.getLast? = some l) (h : l.loop = none) (b c : ScopeChain) (m : ScopeLabel) :
    ScopeChain.pyEq (b ++ m :: ls ++ c) (b ++ m :: anyLast ls ++ c) = true := by
  have := anyLast_pyEq hl h (b ++ [m]) c
  simpa using this

/-- **C86**: in a table of scopes that is a tree, a hierarchical name written in a scope of the module `m` stands for the
declared signal of the scope it names, if no other scope of the module has that name even when the indices of loops are left
out. -/
theorem C86_resolves_partial (ht : ScopeTree fr) (hm : m.type = .module) (hr : ∀ l ∈ rest, l.type ≠ .module) (hh : fr.has (b ++ [m]) = true)
    (hs : StepVals ev labels steps) (hne : labels ≠ []) {ls : ScopeChain} (hls : fr.has (b ++ m :: ls) = true) (hn : NamedBy false ls steps)
    (huniq : ∀ ls', fr.has (b ++ m :: ls') = true → NamedBy true ls' steps → ls' = ls)
    (hd : terms.has (b ++ m :: ls ++ [⟨name, .signal, none⟩]) = true) :
    ∃ v, searchScopeTerminal fr terms ev (fr.length + 1) labels name (b ++ m :: rest) = .ok v ∧
      ScopeChain.pyEq (b ++ m :: ls ++ [⟨name, .signal, none⟩]) v = true := by
  have hss : steps ≠ [] := by rintro rfl; cases hs; exact hne rfl
  rcases searchScope_cases (terms := terms) (name := name) ht hm hr hh hs hne with ⟨h, _⟩ | ⟨ls', h1, h2, h3⟩
  · exact absurd hn.loosen (h ls hls)
  · have e := huniq ls' h1 h2
    subst e
    obtain ⟨n, i, h4, _⟩ := stepLabels_last hss
    obtain ⟨l, h5, _, h6⟩ := hn.last n i h4
    have hp := anyLast_pyEq' h5 h6 b [⟨name, .signal, none⟩] m
    have ht' : hasTermPy terms (b ++ m :: anyLast ls' ++ [⟨name, .signal, none⟩]) = true := by
      unfold hasTermPy
      rw [List.any_eq_true]
      rw [Dict.has_iff_key, List.mem_map] at hd
      obtain ⟨e, he, hk⟩ := hd
      exact ⟨e, he, by rw [hk]; exact hp⟩
    rw [if_pos ht'] at h3
    exact ⟨_, h3, hp⟩

/-- **C86**: a name that no scope of the module has, even without the indices of loops, is reported by NameError (not by
DefinitionError). -/
theorem C86_missing (ht : ScopeTree fr) (hm : m.type = .module) (hr : ∀ l ∈ rest, l.type ≠ .module) (hh : fr.has (b ++ [m]) = true)
    (hs : StepVals ev labels steps) (hne : labels ≠ []) (hno : ∀ ls, fr.has (b ++ m :: ls) = true → ¬ NamedBy true ls steps) :
    searchScopeTerminal fr terms ev (fr.length + 1) labels name (b ++ m :: rest) = .error .name := by
  rcases searchScope_cases (terms := terms) (name := name) ht hm hr hh hs hne with ⟨_, h⟩ | ⟨ls', h1, h2, _⟩
  · exact h
  · exact absurd h2 (hno ls' h1)

/-- **C86**: whatever is found belongs to a scope of the module that has the name when the indices of loops are left out, and
is declared. -/
theorem C86_found (ht : ScopeTree fr) (hm : m.type = .module) (hr : ∀ l ∈ rest, l.type ≠ .module) (hh : fr.has (b ++ [m]) = true)
    (hs : StepVals ev labels steps) (hne : labels ≠ []) {v : ScopeChain}
    (h : searchScopeTerminal fr terms ev (fr.length + 1) labels name (b ++ m :: rest) = .ok v) :
    ∃ ls, fr.has (b ++ m :: ls) = true ∧ NamedBy true ls steps ∧ ScopeChain.pyEq (b ++ m :: ls ++ [⟨name, .signal, none⟩]) v = true ∧
      ∃ k, terms.has k = true ∧ ScopeChain.pyEq k v = true := by
  have hss : steps ≠ [] := by rintro rfl; cases hs; exact hne rfl
  rcases searchScope_cases (terms := terms) (name := name) ht hm hr hh hs hne with ⟨_, h'⟩ | ⟨ls, h1, h2, h3⟩
  · rw [h'] at h; simp at h
  · rw [h3] at h
    split at h
    · rename_i hd
      rw [ok_inj] at h
      obtain ⟨n, i, h4, _⟩ := stepLabels_last hss
      obtain ⟨l, h5, _, h6⟩ := h2.last n i h4
      have hp := anyLast_pyEq' h5 h6 b [⟨name, .signal, none⟩] m
      refine ⟨ls, h1, h2, by rw [← h]; exact hp, ?_⟩
      unfold hasTermPy at hd
      rw [List.any_eq_true] at hd
      obtain ⟨e, he, hk⟩ := hd
      exact ⟨e.1, Dict.has_iff_key.mpr (List.mem_map.mpr ⟨e, he, rfl⟩), by rw [← h]; exact hk⟩
    · simp at h

end

/-! ### A decision procedure for examples -/

def namedB (loose : Bool) : ScopeChain → List (Str × Option Int) → Bool
  | [], ss => ss.isEmpty
  | _ :: _, [] => false
  | l :: ls, (n, none) :: rest =>
    (!l.silent && decide (l.name = n) && decide (l.loop = none) && namedB loose ls rest) ||
    (l.silent && (decide (l.type ≠ .for_) || loose) && namedB loose ls ((n, none) :: rest))
  | l :: ls, (n, some v) :: rest =>
    (decide (l.type = .for_) && decide (l.loop = some v) && namedB loose ls ((n, none) :: rest)) ||
    (l.silent && decide (l.type ≠ .for_) && namedB loose ls ((n, some v) :: rest))

theorem namedB_iff {loose : Bool} : ∀ {ls ss}, namedB loose ls ss = true ↔ NamedBy loose ls ss := by
  intro ls
  induction ls with
  | nil =>
    intro ss
    cases ss with
    | nil => exact ⟨fun _ => .done, fun _ => rfl⟩
    | cons x ss => exact ⟨fun h => by simp [namedB] at h, fun h => by cases h⟩
  | cons l ls ih =>
    intro ss
    match ss with
    | [] => exact ⟨fun h => by simp [namedB] at h, fun h => by cases h⟩
    | (n, none) :: rest =>
      simp only [namedB, Bool.or_eq_true, Bool.and_eq_true, decide_eq_true_eq, Bool.not_eq_true', ih]
      constructor
      · rintro (⟨⟨⟨h1, h2⟩, h3⟩, h4⟩ | ⟨⟨h1, h2⟩, h3⟩)
        · exact .name h1 h2 h3 h4
        · exact .pass h1 (fun h => ⟨h2.resolve_left (fun h' => h' h), rfl⟩) h3
      · intro h
        cases h with
        | name h1 h2 h3 h4 => exact .inl ⟨⟨⟨h1, h2⟩, h3⟩, h4⟩
        | pass h1 h2 h3 =>
          refine .inr ⟨⟨h1, ?_⟩, h3⟩
          by_cases hf : l.type = .for_
          · exact .inr (h2 hf).1
          · exact .inl hf
    | (n, some v) :: rest =>
      simp only [namedB, Bool.or_eq_true, Bool.and_eq_true, decide_eq_true_eq, ih]
      constructor
      · rintro (⟨⟨h1, h2⟩, h3⟩ | ⟨⟨h1, h2⟩, h3⟩)
        · exact .turn h1 h2 h3
        · exact .pass h1 (fun h => absurd h h2) h3
      · intro h
        cases h with
        | turn h1 h2 h3 => exact .inl ⟨⟨h1, h2⟩, h3⟩
        | pass h1 h2 h3 => exact .inr ⟨⟨h1, fun h => by simpa using (h2 h).2⟩, h3⟩

/-! ### A design: `g[1].h.v` and `g.w` in the design of C85 -/

/-- Indices that are numbers. -/
def c86ev : Ex → Py DF
  | .intc s => c85ctx.optimize 100 2 (.intc s)
  | _ => .error .format

/-- The path of the block `h` in the second turn. -/
def c86h : ScopeChain :=
  [⟨"md_generate0".toList, .generate, none⟩, ⟨"ge_for0".toList, .for_, some 1⟩, ⟨"g".toList, .block, none⟩, ⟨"ge_if1_ELSE".toList, .if_, none⟩,
    ⟨"h".toList, .block, none⟩]

/-- The declared signals: `w` in both turns, `v` in the block `h`. -/
def c86terms : Dict ScopeChain Term :=
  [(⟨"top".toList, .module, none⟩ :: c86h ++ [⟨"v".toList, .signal, none⟩], ⟨[], [.wire], .none, .none, none⟩),
    (⟨"top".toList, .module, none⟩ :: [⟨"md_generate0".toList, .generate, none⟩, ⟨"ge_for0".toList, .for_, some 0⟩, ⟨"g".toList, .block, none⟩] ++
      [⟨"w".toList, .signal, none⟩], ⟨[], [.wire], .none, .none, none⟩)]

/-- `g[1].h` -/
def c86name : List (Str × Option Ex) := [("g".toList, some (.intc ['1'])), ("h".toList, none)]

/-- The name `g[1].h.v` meets the hypotheses of `C86_resolves_partial`, and is resolved. -/
example : ∃ s, signalPass c85ctx 100 100 10 [c85top, c85sub] "top".toList = .ok s ∧ ScopeTree s.frames ∧
    s.frames.has [⟨"top".toList, .module, none⟩] = true ∧ StepVals c86ev c86name [("g".toList, some 1), ("h".toList, none)] ∧
    s.frames.has (⟨"top".toList, .module, none⟩ :: c86h) = true ∧ NamedBy false c86h [("g".toList, some 1), ("h".toList, none)] ∧
    (∀ ls', s.frames.has (⟨"top".toList, .module, none⟩ :: ls') = true → NamedBy true ls' [("g".toList, some 1), ("h".toList, none)] → ls' = c86h) ∧
    c86terms.has (⟨"top".toList, .module, none⟩ :: c86h ++ [⟨"v".toList, .signal, none⟩]) = true := by
  have hk : (match signalPass c85ctx 100 100 10 [c85top, c85sub] "top".toList with
      | .ok s => s.frames.has (⟨"top".toList, .module, none⟩ :: c86h) &&
        (s.frames.map (·.1)).all (fun c => !namedB true c.tail [("g".toList, some 1), ("h".toList, none)] || decide (c.tail = c86h))
      | .error _ => false) = true := by decide +kernel
  cases hs : signalPass c85ctx 100 100 10 [c85top, c85sub] "top".toList with
  | error e => rw [hs] at hk; simp at hk
  | ok s =>
    rw [hs] at hk
    simp only [Bool.and_eq_true, List.all_eq_true, Bool.or_eq_true, Bool.not_eq_true', decide_eq_true_eq] at hk
    obtain ⟨ht, hh⟩ := signalPass_tree hs
    refine ⟨s, rfl, ht, hh, ?_, hk.1, namedB_iff.mp (by decide), ?_, by decide⟩
    · exact .cons ⟨rfl, .inr ⟨_, 1, some 32, false, false, rfl, rfl, by rfl⟩⟩ (.cons ⟨rfl, .inl ⟨rfl, rfl⟩⟩ .nil)
    · intro ls' h1 h2
      rcases hk.2 _ (Dict.has_iff_key.mp h1) with h | h
      · rw [List.tail_cons, ← Bool.not_eq_true] at h; exact absurd (namedB_iff.mpr h2) h
      · exact h

/-- **C86** fails in full: a name without the index of a loop, `g.w`, is accepted although no scope is so named; it is the
signal of the first turn. -/
theorem C86_index_false : ¬ ∀ (fr : Dict ScopeChain SFrame) (terms : Dict ScopeChain Term) (ev : Ex → Py DF) (labels : List (Str × Option Ex))
    (steps : List (Str × Option Int)) (name : Str) (b rest : ScopeChain) (m : ScopeLabel) (v : ScopeChain),
    ScopeTree fr → m.type = .module → (∀ l ∈ rest, l.type ≠ .module) → fr.has (b ++ [m]) = true → StepVals ev labels steps → labels ≠ [] →
    searchScopeTerminal fr terms ev (fr.length + 1) labels name (b ++ m :: rest) = .ok v → ∃ ls, fr.has (b ++ m :: ls) = true ∧ NamedBy false ls steps := by
  intro h
  have hk : (match signalPass c85ctx 100 100 10 [c85top, c85sub] "top".toList with
      | .ok s => (searchScopeTerminal s.frames c86terms c86ev (s.frames.length + 1) [("g".toList, none)] "w".toList [⟨"top".toList, .module, none⟩]).isOk &&
        (s.frames.map (·.1)).all (fun c => !namedB false c.tail [("g".toList, none)])
      | .error _ => false) = true := by decide +kernel
  cases hs : signalPass c85ctx 100 100 10 [c85top, c85sub] "top".toList with
  | error e => rw [hs] at hk; simp at hk
  | ok s =>
    rw [hs] at hk
    simp only [Bool.and_eq_true, List.all_eq_true, Bool.not_eq_true'] at hk
    obtain ⟨ht, hh⟩ := signalPass_tree hs
    cases hr : searchScopeTerminal s.frames c86terms c86ev (s.frames.length + 1) [("g".toList, none)] "w".toList [⟨"top".toList, .module, none⟩] with
    | error e => rw [hr] at hk; simp [Except.isOk, Except.toBool] at hk
    | ok v =>
      obtain ⟨ls, h1, h2⟩ := h s.frames c86terms c86ev [("g".toList, none)] [("g".toList, none)] "w".toList [] [] ⟨"top".toList, .module, none⟩ v
        ht rfl (by simp) hh (.cons ⟨rfl, .inl ⟨rfl, rfl⟩⟩ .nil) (by simp) hr
      have := hk.2 _ (Dict.has_iff_key.mp h1)
      rw [List.nil_append, List.tail_cons, ← Bool.not_eq_true] at this
      exact this (namedB_iff.mpr h2)

/-- A name that does not exist: `g[2].w` is a NameError. -/
example : (match signalPass c85ctx 100 100 10 [c85top, c85sub] "top".toList with
    | .ok s => (match searchScopeTerminal s.frames c86terms c86ev (s.frames.length + 1) [("g".toList, some (.intc ['2']))] "w".toList [⟨"top".toList, .module, none⟩] with
      | .error .name => true | _ => false) && (s.frames.map (·.1)).all (fun c => !namedB true c.tail [("g".toList, some 2)])
    | .error _ => false) = true := by decide +kernel

end Pyv
