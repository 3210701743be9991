import Verif.Props.GenEval
import Verif.Props.GraphProps
/-
  C85: the invariant of the first pass.
-/
namespace Pyv

/-- The entry of a name in the tables of the pass. -/
abbrev sigName (n : Str) : ScopeLabel := ⟨n, .signal, none⟩

/-- A frame without the list of its inner frames. -/
def SFrame.core (f : SFrame) : SFrame := { f with next := [] }

/-- The frame table without the lists of inner frames. -/
def SV.view (s : SV) : Dict ScopeChain SFrame := s.frames.map (fun e => (e.1, e.2.core))

/-- The constant table. -/
abbrev SV.vals (s : SV) : Dict ScopeChain DF := s.octx.consts

theorem Dict.get?_map {κ α β : Type} [DecidableEq κ] (d : Dict κ α) (g : α → β) (k : κ) :
    Dict.get? (d.map (fun e => (e.1, g e.2))) k = (d.get? k).map g := by
  induction d with
  | nil => rfl
  | cons p d ih =>
    rw [List.map_cons, Dict.get?_cons, Dict.get?_cons, ih]
    split <;> rfl

theorem Dict.set_map {κ α β : Type} [DecidableEq κ] (d : Dict κ α) (g : α → β) (k : κ) (v : α) :
    (Dict.set d k v).map (fun e => (e.1, g e.2)) = Dict.set (d.map (fun e => (e.1, g e.2))) k (g v) := by
  induction d with
  | nil => rfl
  | cons p d ih =>
    rw [List.map_cons]
    simp only [Dict.set]
    split
    · simp
    · simp [ih]

theorem SV.frame_view {s : SV} {c : ScopeChain} {f : SFrame} (h : s.frame c = .ok f) : s.view.get? c = some f.core := by
  unfold SV.view
  rw [Dict.get?_map, Dict.get_ok.mp h]; rfl

theorem SV.view_frame {s : SV} {c : ScopeChain} {f g : SFrame} (h : s.view.get? c = some f) (hg : s.frame c = .ok g) : g.core = f := by
  have := SV.frame_view hg
  rw [h] at this; exact (Option.some.inj this).symm

/-- The values of the constants of one scope.  `strong`: a constant of the scope has a value (unless the scope is a module, whose
parameters are known before they are evaluated). -/
structure DictAt (strong : Bool) (K : Dict ScopeChain DF) (c : ScopeChain) (f : SFrame) (d : Dict Str Int) : Prop where
  some_ : ∀ n v, d.get? n = some v → f.vars.const.has n = true ∧ ∃ w, K.get? (c ++ [sigName n]) = some (.evi v (some w))
  none_ : ∀ n, d.get? n = none → K.get? (c ++ [sigName n]) = none ∧ (strong = true → f.isModule = false → f.vars.const.has n = false)

/-- The constants that are visible in scope `c`. -/
inductive EnvAt (strong : Bool) (V : Dict ScopeChain SFrame) (K : Dict ScopeChain DF) : ScopeChain → GEnv → Prop
  | top {c f d} : V.get? c = some f → f.isModule = true → DictAt strong K c f d → EnvAt strong V K c [d]
  | up {c l f d σ} : V.get? (c ++ [l]) = some f → f.isModule = false → f.previous = c → DictAt strong K (c ++ [l]) f d →
      EnvAt strong V K c σ → EnvAt strong V K (c ++ [l]) (d :: σ)

theorem DictAt.weaken {b K c f d} (h : DictAt b K c f d) : DictAt false K c f d :=
  ⟨h.some_, fun n hn => ⟨(h.none_ n hn).1, fun e => by simp at e⟩⟩

theorem EnvAt.weaken {b V K c σ} (h : EnvAt b V K c σ) : EnvAt false V K c σ := by
  induction h with
  | top h1 h2 h3 => exact .top h1 h2 h3.weaken
  | up h1 h2 h3 h4 _ ih => exact .up h1 h2 h3 h4.weaken ih

/-- The scopes of an environment: the last ones of the way to `c`, as many as it has. -/
def InEnv (c : ScopeChain) (n : Nat) (x : ScopeChain) : Prop := x <+: c ∧ c.length < x.length + n

theorem EnvAt.len {b V K c σ} (h : EnvAt b V K c σ) : σ ≠ [] ∧ σ.length ≤ c.length + 1 := by
  induction h with
  | top => simp
  | up _ _ _ _ _ ih => simp; omega

theorem EnvAt.congr {b V K V' K' c σ} (h : EnvAt b V K c σ) (hV : ∀ x, InEnv c σ.length x → V'.get? x = V.get? x)
    (hK : ∀ x n, InEnv c σ.length x → K'.get? (x ++ [sigName n]) = K.get? (x ++ [sigName n])) : EnvAt b V' K' c σ := by
  have hD : ∀ {c f d}, DictAt b K c f d → (∀ n, K'.get? (c ++ [sigName n]) = K.get? (c ++ [sigName n])) → DictAt b K' c f d := by
    intro c f d h hK
    exact ⟨fun n v hn => by rw [hK]; exact h.some_ n v hn, fun n hn => by rw [hK]; exact h.none_ n hn⟩
  induction h with
  | @top c f d h1 h2 h3 =>
    have hc : InEnv c [d].length c := ⟨List.prefix_refl c, by simp⟩
    exact .top (by rw [hV _ hc, h1]) h2 (hD h3 (fun n => hK _ n hc))
  | @up c l f d σ h1 h2 h3 h4 h5 ih =>
    have hc : InEnv (c ++ [l]) (d :: σ).length (c ++ [l]) := ⟨List.prefix_refl _, by simp⟩
    have hin : ∀ x, InEnv c σ.length x → InEnv (c ++ [l]) (d :: σ).length x := by
      intro x hx
      refine ⟨hx.1.trans (List.prefix_append _ _), ?_⟩
      have := hx.2
      simp; omega
    exact .up (by rw [hV _ hc, h1]) h2 h3 (hD h4 (fun n => hK _ n hc))
      (ih (fun x hx => hV x (hin x hx)) (fun x n hx => hK x n (hin x hx)))

/-- The search for a name with a value ends at an entry with this value, or without one. -/
theorem searchUp_const {s : SV} {c σ n v} (h : EnvAt false s.view s.vals c σ) (hn : σ.get n = some v) : ∀ {k r},
    s.searchUp (fun x => x.const.has n) k c = .ok r → ∃ x, r = some x ∧
      ((∃ w, s.vals.get? (x ++ [sigName n]) = some (.evi v (some w))) ∨ s.vals.get? (x ++ [sigName n]) = none) := by
  induction h with
  | @top c f d h1 h2 h3 =>
    intro k r hr
    cases k with
    | zero => simp [SV.searchUp] at hr
    | succ k =>
      have hd : d.get? n = some v := by
        simp only [GEnv.get] at hn
        split at hn
        · rename_i e; rw [e]; exact hn
        · cases hn
      obtain ⟨a, b⟩ := h3.some_ n v hd
      simp only [SV.searchUp] at hr
      obtain ⟨g, hg, hr⟩ := bind_ok.mp hr
      have e := SV.view_frame h1 hg
      have hh : g.vars.const.has n = true := by rw [← a, ← e]; rfl
      rw [if_pos hh, ok_inj] at hr
      exact ⟨c, hr.symm, .inl b⟩
  | @up c l f d σ h1 h2 h3 h4 h5 ih =>
    intro k r hr
    cases k with
    | zero => simp [SV.searchUp] at hr
    | succ k =>
      simp only [SV.searchUp] at hr
      obtain ⟨g, hg, hr⟩ := bind_ok.mp hr
      have e := SV.view_frame h1 hg
      have em : g.isModule = false := by rw [← h2, ← e]; rfl
      have ep : g.previous = c := by rw [← h3, ← e]; rfl
      simp only [GEnv.get] at hn
      cases hd : d.get? n with
      | some u =>
        rw [hd] at hn; simp only [Option.some.injEq] at hn; subst hn
        obtain ⟨a, b⟩ := h4.some_ n u hd
        have hh : g.vars.const.has n = true := by rw [← a, ← e]; rfl
        rw [if_pos hh, ok_inj] at hr
        exact ⟨_, hr.symm, .inl b⟩
      | none =>
        rw [hd] at hn; simp only at hn
        split at hr
        · rw [ok_inj] at hr
          exact ⟨_, hr.symm, .inr (h4.none_ n hd).1⟩
        · rw [em, if_neg (by simp), ep] at hr
          exact ih hn hr

theorem constOf_val {s : SV} {c σ n v t} (h : EnvAt false s.view s.vals c σ) (hn : σ.get n = some v)
    (ht : s.constOf c n = .ok t) : FoldsTo t v := by
  unfold SV.constOf SV.searchConst at ht
  obtain ⟨y, hy, ht⟩ := bind_ok.mp ht
  obtain ⟨r, hr, hy⟩ := bind_ok.mp hy
  obtain ⟨x, rfl, hx⟩ := searchUp_const h hn hr
  simp only [ok_inj] at hy
  subst hy
  rcases hx with ⟨w, hx⟩ | hx
  · have hx' : s.octx.consts.get? (x ++ [⟨n, .signal, none⟩]) = _ := hx
    rw [hx'] at ht; simp only [ok_inj] at ht; subst ht; exact .ev v w
  · have hx' : s.octx.consts.get? (x ++ [⟨n, .signal, none⟩]) = _ := hx
    rw [hx'] at ht; simp at ht

theorem SV.eval_val {s : SV} {c σ e v r} (h : EnvAt false s.view s.vals c σ) (he : ConstVal σ e v) (hr : s.eval e c = .ok r) :
    ∃ w, r = .evi v (some w) := by
  unfold SV.eval at hr
  obtain ⟨t, ht, hr⟩ := bind_ok.mp hr
  exact (constDF_folds (fun n v t hn hl => constOf_val h hn hl) he ht).optimize hr

/-- A new value for a name. -/
theorem searchUp_put {s : SV} {c σ n v σ'} (h : EnvAt true s.view s.vals c σ) (hn : GEnv.put σ n v = some σ') : ∀ {k r},
    s.searchUp (fun x => x.const.has n) k c = .ok r → ∃ x, r = some x ∧ InEnv c σ.length x ∧
      ∀ w, EnvAt true s.view (Dict.set s.vals (x ++ [sigName n]) (.evi v (some w))) c σ' := by
  have hDne : ∀ {c f d w}, DictAt true s.vals c f d → ∀ x, x ≠ c → DictAt true (Dict.set s.vals (x ++ [sigName n]) (.evi v (some w))) c f d := by
    intro c f d w h x hx
    have : ∀ m, Dict.get? (Dict.set s.vals (x ++ [sigName n]) (.evi v (some w))) (c ++ [sigName m]) = s.vals.get? (c ++ [sigName m]) := by
      intro m
      rw [Dict.get?_set, if_neg]
      intro e
      exact hx (List.append_inj_left' e rfl)
    exact ⟨fun m u hm => by rw [this]; exact h.some_ m u hm, fun m hm => by rw [this]; exact h.none_ m hm⟩
  have hDeq : ∀ {c f d w}, DictAt true s.vals c f d → (∃ u, d.get? n = some u) →
      DictAt true (Dict.set s.vals (c ++ [sigName n]) (.evi v (some w))) c f (d.set n v) := by
    intro c f d w h ⟨u, hu⟩
    constructor
    · intro m a hm
      rw [Dict.get?_set] at hm
      rw [Dict.get?_set]
      by_cases e : n = m
      · subst e
        simp only [if_true, Option.some.injEq] at hm ⊢
        subst hm
        exact ⟨(h.some_ n u hu).1, w, rfl⟩
      · rw [if_neg e] at hm
        rw [if_neg (by intro e'; apply e; have := List.append_inj_right' e' rfl; simpa using this)]
        exact h.some_ m a hm
    · intro m hm
      rw [Dict.get?_set] at hm
      by_cases e : n = m
      · subst e; simp at hm
      · rw [if_neg e] at hm
        rw [Dict.get?_set, if_neg (by intro e'; apply e; have := List.append_inj_right' e' rfl; simpa using this)]
        exact h.none_ m hm
  induction h generalizing σ' with
  | @top c f d h1 h2 h3 =>
    intro k r hr
    cases k with
    | zero => simp [SV.searchUp] at hr
    | succ k =>
      simp only [GEnv.put] at hn
      split at hn
      · rename_i u hd
        simp only [Option.some.injEq] at hn; subst hn
        simp only [SV.searchUp] at hr
        obtain ⟨g, hg, hr⟩ := bind_ok.mp hr
        have e := SV.view_frame h1 hg
        have hh : g.vars.const.has n = true := by rw [← (h3.some_ n u hd).1, ← e]; rfl
        rw [if_pos hh, ok_inj] at hr
        exact ⟨c, hr.symm, ⟨List.prefix_refl c, by simp⟩, fun w => .top h1 h2 (hDeq h3 ⟨u, hd⟩)⟩
      · simp at hn
  | @up c l f d σ h1 h2 h3 h4 h5 ih =>
    intro k r hr
    cases k with
    | zero => simp [SV.searchUp] at hr
    | succ k =>
      simp only [SV.searchUp] at hr
      obtain ⟨g, hg, hr⟩ := bind_ok.mp hr
      have e := SV.view_frame h1 hg
      have em : g.isModule = false := by rw [← h2, ← e]; rfl
      have ep : g.previous = c := by rw [← h3, ← e]; rfl
      simp only [GEnv.put] at hn
      cases hd : d.get? n with
      | some u =>
        rw [hd] at hn; simp only [Option.some.injEq] at hn; subst hn
        have hh : g.vars.const.has n = true := by rw [← (h4.some_ n u hd).1, ← e]; rfl
        rw [if_pos hh, ok_inj] at hr
        refine ⟨_, hr.symm, ⟨List.prefix_refl _, by simp⟩, fun w => .up h1 h2 h3 (hDeq h4 ⟨u, hd⟩) ?_⟩
        refine h5.congr (fun _ _ => rfl) ?_
        intro x m hx
        rw [Dict.get?_set, if_neg]
        intro e'
        have := List.append_inj_left' e' rfl
        have h2 := hx.1.length_le
        rw [← this] at h2
        simp at h2
      | none =>
        rw [hd] at hn
        simp only [Option.map_eq_some_iff] at hn
        obtain ⟨σ1, hs1, rfl⟩ := hn
        have hh : g.vars.const.has n = false := by rw [← (h4.none_ n hd).2 rfl h2, ← e]; rfl
        rw [if_neg (by show ¬ g.vars.const.has n = true; rw [hh]; simp), em, if_neg (by simp), ep] at hr
        obtain ⟨x, hx, hin, hE⟩ := ih hs1 hr
        refine ⟨x, hx, ⟨hin.1.trans (List.prefix_append _ _), by have := hin.2; simp; omega⟩, fun w => ?_⟩
        refine .up h1 h2 h3 (hDne h4 x ?_) (hE w)
        intro e'
        have h2 := hin.1.length_le
        rw [e'] at h2
        simp at h2

end Pyv
