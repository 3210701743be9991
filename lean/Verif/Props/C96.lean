import Verif.Props.GenProps
/-
  C96: the scopes of the statements of an always block, in particular those of for loops: one for each turn.
-/
namespace Pyv

/-! ### Specification -/

/-- What remains to be done: statements in order, a loop whose variable `i` has the value `a`, the items of a case. -/
inductive StmtWork where
  | stmts (bs : List Stmt)
  | loop (i : Str) (a : Int) (c next : Ex) (b : Stmt)
  | items (bs : List Stmt)

/-- `StmtOpens σ w σ' sc`: with the constants `σ` (the values of loop variables of this block in front, those of the module
behind), `w` opens the scopes `sc` (the ways to them, an outer scope before the inner ones), and leaves the constants `σ'`.

Both sides of an if are opened.  The items of a case are opened one inside the other, as the chain of ifs they stand for; the
statements of casez and unique case are opened in place.  The body of a while loop opens no scope in this pass.  A for loop opens
a scope for each turn, named by the value of its variable, as long as its condition is true. -/
inductive StmtOpens : GEnv → StmtWork → GEnv → List (List Place) → Prop
  | nil {σ} : StmtOpens σ (.stmts []) σ []
  | skip {σ bs σ' sc} : StmtOpens σ (.stmts bs) σ' sc → StmtOpens σ (.stmts (.skip :: bs)) σ' sc
  | nb {σ l r bs σ' sc} : StmtOpens σ (.stmts bs) σ' sc → StmtOpens σ (.stmts (.nb l r :: bs)) σ' sc
  | ba {σ l r bs σ' sc} : StmtOpens σ (.stmts bs) σ' sc → StmtOpens σ (.stmts (.ba l r :: bs)) σ' sc
  | whiles {σ c b bs σ' sc} : StmtOpens σ (.stmts bs) σ' sc → StmtOpens σ (.stmts (.whiles c b :: bs)) σ' sc
  | empty {σ c bs σ' sc} : StmtOpens σ (.stmts bs) σ' sc → StmtOpens σ (.stmts (.ifs c .skip .skip :: bs)) σ' sc
  | ifs {σ c t f bs σ1 σ2 σ' sc1 sc2 sc} : t ≠ .skip → f ≠ .skip → StmtOpens σ (.stmts [t]) σ1 sc1 → StmtOpens σ1 (.stmts [f]) σ2 sc2 →
      StmtOpens σ2 (.stmts bs) σ' sc →
      StmtOpens σ (.stmts (.ifs c t f :: bs)) σ'
        (([.arm true] :: sc1.map (Place.arm true :: ·)) ++ ([.arm false] :: sc2.map (Place.arm false :: ·)) ++ sc)
  | ifThen {σ c t bs σ1 σ' sc1 sc} : t ≠ .skip → StmtOpens σ (.stmts [t]) σ1 sc1 → StmtOpens σ1 (.stmts bs) σ' sc →
      StmtOpens σ (.stmts (.ifs c t .skip :: bs)) σ' (([.arm true] :: sc1.map (Place.arm true :: ·)) ++ sc)
  | block {σ n ss bs σ1 σ' sc1 sc} : StmtOpens σ (.stmts ss) σ1 sc1 → StmtOpens σ1 (.stmts bs) σ' sc →
      StmtOpens σ (.stmts (.block n ss :: bs)) σ' (([.block n] :: sc1.map (Place.block n :: ·)) ++ sc)
  | inPlace {σ k e cs ss bs σ1 σ' sc1 sc} : k = .casez ∨ k = .unique → StmtOpens σ (.stmts ss) σ1 sc1 →
      StmtOpens σ1 (.stmts bs) σ' sc → StmtOpens σ (.stmts (.cases k e cs ss :: bs)) σ' (sc1 ++ sc)
  | cases {σ k e cs ss bs σ1 σ' sc1 sc} : k ≠ .casez → k ≠ .unique → cs.length = ss.length → StmtOpens σ (.items ss) σ1 sc1 →
      StmtOpens σ1 (.stmts bs) σ' sc → StmtOpens σ (.stmts (.cases k e cs ss :: bs)) σ' (sc1 ++ sc)
  | noItem {σ} : StmtOpens σ (.items []) σ []
  | last {σ b σ1 sc1} : StmtOpens σ (.stmts [b]) σ1 sc1 →
      StmtOpens σ (.items [b]) σ1 ([.arm true] :: sc1.map (Place.arm true :: ·))
  | item {σ b b' bs σ1 σ2 sc1 sc2} : StmtOpens σ (.stmts [b]) σ1 sc1 → StmtOpens σ1 (.items (b' :: bs)) σ2 sc2 →
      StmtOpens σ (.items (b :: b' :: bs)) σ2
        (([.arm true] :: sc1.map (Place.arm true :: ·)) ++ ([.arm false] :: sc2.map (Place.arm false :: ·)))
  | fors {d σ i pr a c next b bs σ1 σ' sc1 sc} : ConstVal (d :: σ) pr a →
      StmtOpens (d.set i a :: σ) (.loop i a c next b) σ1 sc1 → StmtOpens σ1 (.stmts bs) σ' sc →
      StmtOpens (d :: σ) (.stmts (.fors (.ident [] i) pr c (.ident [] i) next b :: bs)) σ' (sc1 ++ sc)
  | stop {σ i a c next b} : ConstVal σ c 0 → StmtOpens σ (.loop i a c next b) σ []
  | turn {σ i a c next b v d σ1 sc1 a' σ2 sc2} : ConstVal σ c v → 0 < v → StmtOpens σ (.stmts [b]) (d :: σ1) sc1 →
      ConstVal (d :: σ1) next a' → StmtOpens (d.set i a' :: σ1) (.loop i a' c next b) σ2 sc2 →
      StmtOpens σ (.loop i a c next b) σ2 (([.turn a] :: sc1.map (Place.turn a :: ·)) ++ sc2)

/-- In the place where the pass stands, the names with a value in `σ` are read as these values. -/
def SV.Knows (s : SV) (σ : GEnv) : Prop := ∀ n v, σ.get n = some v → ∃ w, s.constOf s.current n = .ok (.evi v (some w))

/-- The scopes of the table. -/
def SV.scopes (s : SV) : List ScopeChain := s.frames.map (·.1)

/-- The names `keys` of scopes are, in order, those of the scopes `sc` below `base`. -/
def NamesFor (base : ScopeChain) (keys : List ScopeChain) (sc : List (List Place)) : Prop :=
  List.Forall₂ (fun k p => ∃ ls, k = base ++ ls ∧ List.Forall₂ LabelFor ls p) keys sc

/-- The frames `new` are, in order, the scopes `sc` below `base`. -/
def ScopesBelow (base : ScopeChain) (new : Dict ScopeChain SFrame) (sc : List (List Place)) : Prop :=
  List.Forall₂ (fun e p => ∃ ls, e.1 = base ++ ls ∧ List.Forall₂ LabelFor ls p) new sc

/-! ### Reading names -/

theorem searchUp_more {s s' : SV} {new : Dict ScopeChain SFrame} (hv : s'.view = s.view ++ new) {has : Variables DItem → Bool} :
    ∀ {k c r}, s.searchUp has k c = .ok r → s'.searchUp has k c = .ok r := by
  intro k
  induction k with
  | zero => intro c r h; simp [SV.searchUp] at h
  | succ k ih =>
    intro c r h
    simp only [SV.searchUp] at h ⊢
    obtain ⟨f, hf, h⟩ := bind_ok.mp h
    have h1 := SV.frame_view hf
    have h2 : s'.view.get? c = some f.core := by rw [hv, Dict.get?_append (Dict.has_of_get? h1), h1]
    have : ∃ g, s'.frame c = .ok g := by
      unfold SV.view at h2
      rw [Dict.get?_map] at h2
      cases hg : s'.frames.get? c with
      | none => rw [hg] at h2; cases h2
      | some g => exact ⟨g, Dict.get_ok.mpr hg⟩
    obtain ⟨g, hg⟩ := this
    have e := SV.view_frame h2 hg
    have e1 : g.vars = f.vars := by have h := congrArg SFrame.vars e; exact h
    have e2 : g.isModule = f.isModule := by have h := congrArg SFrame.isModule e; exact h
    have e3 : g.previous = f.previous := by have h := congrArg SFrame.previous e; exact h
    rw [hg, ok_bind, e1, e2, e3]
    split at h
    · rename_i hh; rw [if_pos hh]; exact h
    · rename_i hh; rw [if_neg hh]
      split at h
      · rename_i hm; rw [if_pos hm]; exact h
      · rename_i hm; rw [if_neg hm]; exact ih h

theorem searchConst_more {s s' : SV} {new : Dict ScopeChain SFrame} (hv : s'.view = s.view ++ new) {c n y}
    (h : s.searchConst c n = .ok y) : s'.searchConst c n = .ok y := by
  unfold SV.searchConst at h ⊢
  obtain ⟨r, hr, h⟩ := bind_ok.mp h
  rw [searchUp_more hv hr, ok_bind]
  cases r with
  | some c => exact h
  | none =>
    simp only at h ⊢
    obtain ⟨r, hr, h⟩ := bind_ok.mp h
    rw [searchUp_more hv hr, ok_bind]
    exact h

/-- In a frame without declarations a name is the one of the frame around it. -/
theorem searchConst_child {s : SV} {c l f} (hf : s.view.get? (c ++ [l]) = some f) (hm : f.isModule = false) (hp : f.previous = c)
    (hv : f.vars = ⟨[], [], []⟩) (n : Str) : s.searchConst (c ++ [l]) n = s.searchConst c n := by
  have : ∃ g, s.frame (c ++ [l]) = .ok g := by
    unfold SV.view at hf
    rw [Dict.get?_map] at hf
    cases hg : s.frames.get? (c ++ [l]) with
    | none => rw [hg] at hf; cases hf
    | some g => exact ⟨g, Dict.get_ok.mpr hg⟩
  obtain ⟨g, hg⟩ := this
  have e := SV.view_frame hf hg
  have e1 : g.vars = ⟨[], [], []⟩ := by rw [← hv]; have h := congrArg SFrame.vars e; exact h
  have e2 : g.isModule = false := by rw [← hm]; have h := congrArg SFrame.isModule e; exact h
  have e3 : g.previous = c := by rw [← hp]; have h := congrArg SFrame.previous e; exact h
  have key : ∀ (has : Variables DItem → Bool), has ⟨[], [], []⟩ = false →
      s.searchUp has ((c ++ [l]).length + 1) (c ++ [l]) = s.searchUp has (c.length + 1) c := by
    intro has h0
    rw [SV.searchUp.eq_def]
    simp only [List.length_append, List.length_cons, List.length_nil]
    rw [hg, ok_bind, e1, h0, e2, e3]
    simp
  unfold SV.searchConst
  rw [key (fun v => v.const.has n) rfl, key (fun v => v.signal.has n) rfl]

theorem SV.Knows.found {s : SV} {σ n v} (h : s.Knows σ) (hn : σ.get n = some v) : ∃ y w, s.searchConst s.current n = .ok y ∧
    s.vals.get? y = some (.evi v (some w)) := by
  obtain ⟨w, h⟩ := h n v hn
  unfold SV.constOf at h
  obtain ⟨y, hy, h⟩ := bind_ok.mp h
  refine ⟨y, w, hy, ?_⟩
  split at h
  · rename_i hg; rw [ok_inj] at h; rw [← h]; exact hg
  · simp at h

theorem SV.knows_of {s : SV} {σ} (h : ∀ n v, σ.get n = some v → ∃ y w, s.searchConst s.current n = .ok y ∧
    s.vals.get? y = some (.evi v (some w))) : s.Knows σ := by
  intro n v hn
  obtain ⟨y, w, h1, h2⟩ := h n v hn
  refine ⟨w, ?_⟩
  unfold SV.constOf
  rw [h1, ok_bind]
  have h2' : s.octx.consts.get? y = _ := h2
  rw [h2']

theorem SV.Knows.eval {s : SV} {σ e v r} (h : s.Knows σ) (he : ConstVal σ e v) (hr : s.eval e s.current = .ok r) :
    ∃ w, r = .evi v (some w) := by
  unfold SV.eval at hr
  obtain ⟨t, ht, hr⟩ := bind_ok.mp hr
  refine (constDF_folds ?_ he ht).optimize hr
  intro n v t hn hl
  obtain ⟨w, hw⟩ := h n v hn
  rw [hw, ok_inj] at hl
  subst hl
  exact .ev v w

/-! ### What the pass does -/

/-- Statements of an always block were visited. -/
structure Ranged (s s' : SV) (σ' : GEnv) (sc : List (List Place)) : Prop where
  cur : s'.current = s.current
  view : ∃ new, s'.view = s.view ++ new ∧ ScopesBelow s.current new sc
  knows : s'.Knows σ'

theorem Ranged.trans {s s1 s2 σ1 σ2 sc1 sc2} (h1 : Ranged s s1 σ1 sc1) (h2 : Ranged s1 s2 σ2 sc2) : Ranged s s2 σ2 (sc1 ++ sc2) := by
  obtain ⟨n1, v1, b1⟩ := h1.view
  obtain ⟨n2, v2, b2⟩ := h2.view
  rw [h1.cur] at b2
  exact ⟨h2.cur.trans h1.cur, ⟨n1 ++ n2, by rw [v2, v1, List.append_assoc], List.rel_append b1 b2⟩, h2.knows⟩

theorem Ranged.always {s s' σ sc} (h : Ranged s s' σ sc) (hi : s.InAlways) : s'.InAlways := by
  obtain ⟨new, hv, _⟩ := h.view
  exact hi.keep ⟨new, hv⟩ h.cur

theorem Ranged.same {s s' : SV} {σ} (hk : s.Knows σ) (hc : s'.current = s.current) (hv : s'.view = s.view) (hs : s'.vals = s.vals) :
    Ranged s s' σ [] := by
  refine ⟨hc, ⟨[], by simp [hv], .nil⟩, SV.knows_of ?_⟩
  intro n v hn
  obtain ⟨y, w, h1, h2⟩ := hk.found hn
  refine ⟨y, w, ?_, by rw [hs]; exact h2⟩
  rw [hc]
  exact searchConst_more (new := []) (by simp [hv]) h1

theorem Ranged.refl {s : SV} {σ} (hk : s.Knows σ) : Ranged s s σ [] := .same hk rfl rfl rfl

theorem label_ranged {s : SV} {n r σ} (hk : s.Knows σ) (h : s.label n = .ok r) : Ranged s r.2 σ [] := by
  have e := label_same h
  exact .same hk (by rw [e]) (by rw [e]; rfl) (by rw [e])

/-- What a body does with the constants `σ`. -/
def BodyRanged (body : SV → Py SV) (σ σ' : GEnv) (sc : List (List Place)) : Prop :=
  ∀ s s', s.InAlways → s.Knows σ → body s = .ok s' → Ranged s s' σ' sc

/-- Enter a frame. -/
theorem addFrame_knows {s s1 : SV} {l f σ} (hk : s.Knows σ) (h : s.addFrame l f = .ok s1) (ha : f.isAlways = true)
    (hm : f.isModule = false) (hv : f.vars = ⟨[], [], []⟩) : s1.Knows σ ∧ s1.InAlways ∧ s1.current = s.current ++ [l] ∧
      ∃ g : SFrame, s1.view = s.view ++ [(s.current ++ [l], g)] ∧ s1.view.get? (s.current ++ [l]) = some g ∧ g.isModule = false ∧
        g.previous = s.current ∧ g.vars = ⟨[], [], []⟩ := by
  obtain ⟨hn, hv1, hs⟩ := addFrame_ok h
  have hc : s1.current = s.current ++ [l] := by rw [hs]
  have hg : s1.view.get? (s.current ++ [l]) = some ({ f with previous := s.current } : SFrame).core := by
    rw [hv1, Dict.get?_append_right hn]; simp [Dict.get?_cons]
  refine ⟨SV.knows_of ?_, (addFrame_always h ha).2, hc, _, hv1, hg, hm, rfl, hv⟩
  intro n v hnv
  obtain ⟨y, w, h1, h2⟩ := hk.found hnv
  refine ⟨y, w, ?_, by rw [hs]; exact h2⟩
  rw [hc, searchConst_child hg hm rfl hv]
  exact searchConst_more hv1 h1

/-- Leave a frame: the names seen from outside. -/
theorem leave_knows {s s1 s2 : SV} {l f σ σ'} (hk : s.Knows σ) (h : s.addFrame l f = .ok s1) (ha : f.isAlways = true)
    (hm : f.isModule = false) (hv : f.vars = ⟨[], [], []⟩) (hb : ∃ new, s2.view = s1.view ++ new)
    (hk2 : ({ s2 with current := s1.current } : SV).Knows σ') : ({ s2 with current := s.current } : SV).Knows σ' := by
  obtain ⟨_, _, hc, g, hv1, hg, hgm, hgp, hgv⟩ := addFrame_knows hk h ha hm hv
  obtain ⟨new, hv2⟩ := hb
  refine SV.knows_of ?_
  intro n v hnv
  obtain ⟨y, w, h1, h2⟩ := hk2.found hnv
  refine ⟨y, w, ?_, h2⟩
  have hg2 : ({ s2 with current := s1.current } : SV).view.get? (s.current ++ [l]) = some g := by
    show s2.view.get? _ = _
    rw [hv2, Dict.get?_append (Dict.has_of_get? hg), hg]
  have h1' : ({ s2 with current := s1.current } : SV).searchConst (s.current ++ [l]) n = .ok y := by rw [← hc]; exact h1
  rw [searchConst_child hg2 hgm hgp hgv] at h1'
  have hx : ({ s2 with current := s.current } : SV).view = ({ s2 with current := s1.current } : SV).view ++ [] := by
    simp only [List.append_nil]; rfl
  exact searchConst_more hx h1'

/-- Leave a frame: what was done inside it, seen from outside. -/
theorem leave_ranged {s s1 s2 : SV} {l f σ σ' p sc} (hk : s.Knows σ) (h : s.addFrame l f = .ok s1) (ha : f.isAlways = true)
    (hm : f.isModule = false) (hv : f.vars = ⟨[], [], []⟩) (hp : LabelFor l p) (hb : ∃ new, s2.view = s1.view ++ new ∧ ScopesBelow s1.current new sc)
    (hk2 : ({ s2 with current := s1.current } : SV).Knows σ') :
    Ranged s { s2 with current := s.current } σ' ([p] :: sc.map (p :: ·)) := by
  obtain ⟨_, _, hc, g, hv1, hg, hgm, hgp, hgv⟩ := addFrame_knows hk h ha hm hv
  have hL := leave_knows hk h ha hm hv (by obtain ⟨n, h, _⟩ := hb; exact ⟨n, h⟩) hk2
  obtain ⟨new, hv2, hb⟩ := hb
  refine ⟨rfl, ⟨(s.current ++ [l], g) :: new, ?_, ?_⟩, hL⟩
  · show s2.view = _
    rw [hv2, hv1, List.append_assoc]; rfl
  · refine .cons ⟨[l], rfl, .cons hp .nil⟩ ?_
    rw [List.forall₂_map_right_iff]
    refine List.Forall₂.imp ?_ hb
    rintro e q ⟨ls, h1, h2⟩
    exact ⟨l :: ls, by rw [h1, hc, List.append_assoc]; rfl, .cons hp h2⟩

theorem inside_ranged {s s' : SV} {l f σ σ' p sc} {body : SV → Py SV} (hk : s.Knows σ) (hb : BodyRanged body σ σ' sc)
    (h : s.inside l f body = .ok s') (ha : f.isAlways = true) (hm : f.isModule = false) (hv : f.vars = ⟨[], [], []⟩)
    (hp : LabelFor l p) : Ranged s s' σ' ([p] :: sc.map (p :: ·)) := by
  unfold SV.inside at h
  obtain ⟨s1, h1, h⟩ := bind_ok.mp h
  obtain ⟨s2, h2, h⟩ := bind_ok.mp h
  rw [ok_inj] at h; subst h
  obtain ⟨k1, i1, _⟩ := addFrame_knows hk h1 ha hm hv
  have R := hb s1 s2 i1 k1 h2
  refine leave_ranged hk h1 ha hm hv hp R.view ?_
  have := R.knows
  have e : ({ s2 with current := s1.current } : SV) = s2 := by rw [← R.cur]
  rw [e]; exact this

theorem InAlways.frame {s : SV} (hi : s.InAlways) {f} (hf : s.frame s.current = .ok f) : f.isAlways = true := by
  obtain ⟨f', hf', ha⟩ := hi
  have := SV.view_frame hf' hf
  rw [← ha, ← this]; rfl

theorem side_ranged {s s' : SV} {l c b σ σ' p sc} {body : SV → Py SV} (hi : s.InAlways) (hk : s.Knows σ) (hb : BodyRanged body σ σ' sc)
    (h : s.side l c b body = .ok s') (hp : LabelFor ⟨l, .if_, none⟩ p) : Ranged s s' σ' ([p] :: sc.map (p :: ·)) := by
  unfold SV.side at h
  obtain ⟨f, hf, h⟩ := bind_ok.mp h
  have hA : f.isAlways = true := InAlways.frame hi hf
  exact inside_ranged hk hb h hA rfl rfl hp

/-- A turn gives a value to the loop variable. -/
theorem assignIter_ranged {s s' : SV} {d σ i e a} (hk : s.Knows (d :: σ)) (he : ConstVal (d :: σ) e a)
    (h : s.assignIter (.ident [] i) e = .ok s') : Ranged s s' (d.set i a :: σ) [] := by
  simp only [SV.assignIter] at h
  obtain ⟨c, hc, h⟩ := bind_ok.mp h
  obtain ⟨x, hx, h⟩ := bind_ok.mp h
  obtain ⟨w, rfl⟩ := hk.eval he hx
  rw [ok_inj] at h
  have hlast : ∀ {n y}, s.searchConst s.current n = .ok y → ∃ z, y = z ++ [sigName n] := by
    intro n y hy
    unfold SV.searchConst at hy
    obtain ⟨r, _, hy⟩ := bind_ok.mp hy
    cases r with
    | some z => simp only [ok_inj] at hy; exact ⟨z, hy.symm⟩
    | none =>
      simp only at hy
      obtain ⟨r, _, hy⟩ := bind_ok.mp hy
      cases r with
      | some z => simp only [ok_inj] at hy; exact ⟨z, hy.symm⟩
      | none => simp at hy
  have hv : s'.view = s.view := by rw [← h]; rfl
  have hcur : s'.current = s.current := by rw [← h]; rfl
  refine ⟨hcur, ⟨[], by simp [hv], .nil⟩, SV.knows_of ?_⟩
  have hvals : s'.vals = Dict.set s.vals c (.evi a (some w)) := by rw [← h]; rfl
  intro n v hn
  rw [hcur]
  by_cases hni : n = i
  · subst hni
    simp only [GEnv.get, Dict.get?_set, if_true, Option.some.injEq] at hn
    subst hn
    refine ⟨c, w, searchConst_more (new := []) (by simp [hv]) hc, ?_⟩
    rw [hvals, Dict.get?_set, if_pos rfl]
  · have hn' : GEnv.get (d :: σ) n = some v := by
      simp only [GEnv.get, Dict.get?_set, if_neg (Ne.symm hni)] at hn ⊢
      exact hn
    obtain ⟨y, w', h1, h2⟩ := hk.found hn'
    refine ⟨y, w', searchConst_more (new := []) (by simp [hv]) h1, ?_⟩
    rw [hvals, Dict.get?_set, if_neg]
    · exact h2
    · rintro rfl
      obtain ⟨z, e1⟩ := hlast h1
      obtain ⟨z', e2⟩ := hlast hc
      rw [e2] at e1
      have := (List.append_inj' e1 rfl).2
      simp at this
      exact hni this.symm

/-- What the pass does for a piece of work. -/
def StmtWork.Ran : StmtWork → GEnv → GEnv → List (List Place) → Prop
  | .stmts bs, σ, σ', sc => BodyRanged (Stmt.scanList bs) σ σ' sc
  | .loop i a c next b, σ, σ', sc => ∀ label k, BodyRanged (SV.forLoop label c (.ident [] i) next (Stmt.scan b) k a) σ σ' sc
  | .items bs, σ, σ', sc => ∀ comp cs, cs.length = bs.length →
      BodyRanged (fun s => do let s1 ← Stmt.scanCases comp cs bs s; .ok { s1 with current := s.current }) σ σ' sc

theorem Ranged.after {s s1 s2 : SV} {σ1 σ2 sc} (h1 : Ranged s s1 σ1 []) (h2 : Ranged s1 s2 σ2 sc) : Ranged s s2 σ2 sc := by
  have := h1.trans h2
  simpa using this

theorem Ranged.stays {s s' : SV} {σ sc} (h : Ranged s s' σ sc) : Ranged s { s' with current := s.current } σ sc := by
  have : ({ s' with current := s.current } : SV) = s' := by rw [← h.cur]
  rw [this]; exact h

theorem scan_single {b : Stmt} {s s' : SV} (h : b.scan s = .ok s') : Stmt.scanList [b] s = .ok s' := by
  simp only [Stmt.scanList]
  rw [h]; rfl

theorem body_single {b : Stmt} {σ σ' sc} (h : StmtWork.Ran (.stmts [b]) σ σ' sc) : BodyRanged b.scan σ σ' sc :=
  fun s s' hi hk hs => h s s' hi hk (scan_single hs)

theorem not_skip {b : Stmt} (h : b ≠ .skip) : b.isSkip = false := by
  cases b <;> simp_all [Stmt.isSkip]

/-- One statement in front of others. -/
theorem ran_cons {b : Stmt} {bs : List Stmt} {σ σ1 σ' sc1 sc} (h1 : BodyRanged b.scan σ σ1 sc1)
    (h2 : StmtWork.Ran (.stmts bs) σ1 σ' sc) : StmtWork.Ran (.stmts (b :: bs)) σ σ' (sc1 ++ sc) := by
  intro s s' hi hk h
  simp only [Stmt.scanList] at h
  obtain ⟨s1, hs, h⟩ := bind_ok.mp h
  have R1 := h1 s s1 hi hk hs
  exact R1.trans (h2 s1 s' (R1.always hi) R1.knows h)

theorem visitIf_ranged {c : Ex} {noT noF : Bool} {vt vf : SV → Py SV} {s s' : SV} (hi : s.InAlways)
    (h : SV.visitIf c noT vt noF vf s = .ok s') : (noT = true ∧ noF = true ∧ s' = s) ∨
      (noT = false ∧ ∃ r, s.label "if".toList = .ok r ∧ ∃ s1, r.2.side r.1 c false vt = .ok s1 ∧
        ((noF = true ∧ s' = s1) ∨ (noF = false ∧ s1.side (toELSE r.1) c true vf = .ok s'))) := by
  unfold SV.visitIf at h
  obtain ⟨f, hf, h⟩ := bind_ok.mp h
  rw [if_neg (by rw [InAlways.frame hi hf]; simp)] at h
  cases noT with
  | true =>
    cases noF with
    | true => simp only [if_true, ok_inj] at h; exact .inl ⟨rfl, rfl, h.symm⟩
    | false => simp at h
  | false =>
    simp only [Bool.false_eq_true, if_false] at h
    obtain ⟨r, hr, h⟩ := bind_ok.mp h
    obtain ⟨s1, h1, h⟩ := bind_ok.mp h
    refine .inr ⟨rfl, r, hr, s1, h1, ?_⟩
    cases noF with
    | true => simp only [if_true, ok_inj] at h; exact .inl ⟨rfl, h.symm⟩
    | false => exact .inr ⟨rfl, h⟩

theorem ran_all {σ w σ' sc} (h : StmtOpens σ w σ' sc) : w.Ran σ σ' sc := by
  induction h with
  | nil => intro s s' _ hk h; simp only [Stmt.scanList, ok_inj] at h; subst h; exact .refl hk
  | skip _ ih =>
    exact ran_cons (sc1 := []) (fun s s' _ hk h => by simp only [Stmt.scan, ok_inj] at h; subst h; exact .refl hk) ih
  | nb _ ih =>
    exact ran_cons (sc1 := []) (fun s s' _ hk h => by simp only [Stmt.scan, ok_inj] at h; subst h; exact .refl hk) ih
  | ba _ ih =>
    exact ran_cons (sc1 := []) (fun s s' _ hk h => by simp only [Stmt.scan, ok_inj] at h; subst h; exact .refl hk) ih
  | whiles _ ih =>
    exact ran_cons (sc1 := []) (fun s s' _ hk h => by simp only [Stmt.scan, ok_inj] at h; subst h; exact .refl hk) ih
  | empty _ ih =>
    refine ran_cons (sc1 := []) ?_ ih
    intro s s' hi hk h
    simp only [Stmt.scan] at h
    rcases visitIf_ranged hi h with ⟨_, _, rfl⟩ | ⟨e, _⟩
    · exact .refl hk
    · simp [Stmt.isSkip] at e
  | ifs ht hf _ _ _ iht ihf ih =>
    refine ran_cons ?_ ih
    intro s s' hi hk h
    simp only [Stmt.scan] at h
    rcases visitIf_ranged hi h with ⟨e, _⟩ | ⟨_, r, hr, s1, h1, h2⟩
    · rw [not_skip ht] at e; cases e
    · have R0 := label_ranged hk hr
      have R1 := side_ranged (R0.always hi) R0.knows (body_single iht) h1 .first
      rcases h2 with ⟨e, _⟩ | ⟨_, h2⟩
      · rw [not_skip hf] at e; cases e
      · have R2 := side_ranged (R1.always (R0.always hi)) R1.knows (body_single ihf) h2 .second
        exact R0.after (R1.trans R2)
  | ifThen ht _ _ iht ih =>
    refine ran_cons ?_ ih
    intro s s' hi hk h
    simp only [Stmt.scan] at h
    rcases visitIf_ranged hi h with ⟨e, _⟩ | ⟨_, r, hr, s1, h1, h2⟩
    · rw [not_skip ht] at e; cases e
    · have R0 := label_ranged hk hr
      have R1 := side_ranged (R0.always hi) R0.knows (body_single iht) h1 .first
      rcases h2 with ⟨_, rfl⟩ | ⟨e, _⟩
      · exact R0.after R1
      · simp [Stmt.isSkip] at e
  | @block σ n ss bs σ1 σ' sc1 sc _ _ ihb ih =>
    refine ran_cons ?_ ih
    intro s s' hi hk h
    simp only [Stmt.scan, SV.visitBlock] at h
    obtain ⟨r, hr, h⟩ := bind_ok.mp h
    obtain ⟨f, hf, h⟩ := bind_ok.mp h
    have key : Ranged s r.2 σ [] ∧ LabelFor ⟨r.1, .block, none⟩ (.block n) := by
      cases n with
      | some n => simp only [ok_inj] at hr; subst hr; exact ⟨.refl hk, .named⟩
      | none => exact ⟨label_ranged hk hr, .unnamed⟩
    obtain ⟨R0, hl⟩ := key
    have hA : f.isAlways = true := InAlways.frame (R0.always hi) hf
    exact R0.after (inside_ranged R0.knows ihb h hA rfl rfl hl)
  | inPlace hc _ _ ihb ih =>
    refine ran_cons ?_ ih
    intro s s' hi hk h
    rcases hc with rfl | rfl <;> (simp only [Stmt.scan] at h; exact ihb s s' hi hk h)
  | @cases σ k e cs ss bs σ1 σ' sc1 sc h1 h2 hl _ _ ihb ih =>
    refine ran_cons ?_ ih
    intro s s' hi hk h
    refine ihb e cs hl s s' hi hk ?_
    cases k <;> simp only [Stmt.scan] at h
    all_goals first
      | exact h
      | exact absurd rfl h1
      | exact absurd rfl h2
  | noItem =>
    intro comp cs _ s s' _ hk h
    cases cs <;>
    · simp only [Stmt.scanCases] at h
      rw [ok_bind, ok_inj] at h; subst h; exact .refl hk
  | last _ ih =>
    intro comp cs hl s s' hi hk h
    match cs, hl with
    | [c], _ =>
      simp only [Stmt.scanCases] at h
      obtain ⟨s3, h, h9⟩ := bind_ok.mp h
      obtain ⟨e, _, h⟩ := bind_ok.mp h
      obtain ⟨r, hr, h⟩ := bind_ok.mp h
      obtain ⟨s1, h1, h⟩ := bind_ok.mp h
      simp only [List.isEmpty_nil, if_true, ok_inj] at h
      rw [ok_inj] at h9
      subst h h9
      have R0 := label_ranged hk hr
      exact (R0.after (side_ranged (R0.always hi) R0.knows (body_single ih) h1 .first)).stays
  | @item σ b b' bs σ1 σ2 sc1 sc2 _ _ ihb ih =>
    intro comp cs hl s s' hi hk h
    match cs, hl with
    | c :: cs, hl =>
      have hl' : cs.length = (b' :: bs).length := by simpa using hl
      have e0 : Stmt.scanCases comp (c :: cs) (b :: b' :: bs) s = (do
          let e ← caseCond comp c
          let r ← s.label "if".toList
          let s1 ← r.2.side r.1 e false (Stmt.scan b)
          let f ← s1.frame s1.current
          let s2 ← s1.addFrame ⟨toELSE r.1, .if_, none⟩ { f.child with cond := some e, isElse := true }
          Stmt.scanCases comp cs (b' :: bs) s2) := by
        rw [Stmt.scanCases.eq_def]
        rfl
      simp only at h
      rw [e0] at h
      obtain ⟨s3, h, h9⟩ := bind_ok.mp h
      obtain ⟨e, _, h⟩ := bind_ok.mp h
      obtain ⟨r, hr, h⟩ := bind_ok.mp h
      obtain ⟨s1, h1, h⟩ := bind_ok.mp h
      obtain ⟨f, hf, h⟩ := bind_ok.mp h
      obtain ⟨s2, h2, hz⟩ := bind_ok.mp h
      rw [ok_inj] at h9; subst h9
      have R0 := label_ranged hk hr
      have R1 := R0.after (side_ranged (R0.always hi) R0.knows (body_single ihb) h1 .first)
      have hi1 := R1.always hi
      have hA : f.isAlways = true := InAlways.frame hi1 hf
      obtain ⟨k2, i2, c2, _⟩ := addFrame_knows R1.knows h2 hA rfl rfl
      have R3 := ih comp cs hl' s2 { s3 with current := s2.current } i2 k2 (by beta_reduce; rw [hz]; rfl)
      have R4 := leave_ranged R1.knows h2 hA rfl rfl .second (s2 := s3) R3.view R3.knows
      have R5 := R1.trans R4
      have e5 : s1.current = s.current := R1.cur
      rw [e5] at R5
      exact R5
  | @fors d σ i pr a c next b bs σ1 σ' sc1 sc hpr _ _ ihl ih =>
    refine ran_cons ?_ ih
    intro s s' hi hk h
    simp only [Stmt.scan, SV.visitFor] at h
    obtain ⟨w, hw, h⟩ := bind_ok.mp h
    obtain ⟨x, rfl⟩ := hk.eval hpr hw
    obtain ⟨n, hn, h⟩ := bind_ok.mp h
    have hn' : (Except.ok a : Py Int) = .ok n := hn
    rw [ok_inj] at hn'; subst hn'
    obtain ⟨s1, h1, h⟩ := bind_ok.mp h
    obtain ⟨r, hr, h⟩ := bind_ok.mp h
    have R1 := assignIter_ranged hk hpr h1
    have R2 := R1.after (label_ranged R1.knows hr)
    exact R2.after (ihl _ _ _ _ (R2.always hi) R2.knows h)
  | @stop σ i a c next b hc =>
    intro label k s s' hi hk h
    cases k with
    | zero => simp [SV.forLoop] at h
    | succ k =>
      simp only [SV.forLoop] at h
      obtain ⟨w, hw, h⟩ := bind_ok.mp h
      obtain ⟨x, rfl⟩ := hk.eval hc hw
      rw [if_neg (by simp [DF.isEv])] at h
      obtain ⟨n, hn, h⟩ := bind_ok.mp h
      have hn' : (Except.ok 0 : Py Int) = .ok n := hn
      rw [ok_inj] at hn'; subst hn'
      rw [if_pos (by omega), ok_inj] at h
      subst h; exact .refl hk
  | @turn σ i a c next b v d σ1 sc1 a' σ2 sc2 hc hv _ hnext _ ihb ihl =>
    intro label k s s' hi hk h
    cases k with
    | zero => simp [SV.forLoop] at h
    | succ k =>
      simp only [SV.forLoop] at h
      obtain ⟨w, hw, h⟩ := bind_ok.mp h
      obtain ⟨x, rfl⟩ := hk.eval hc hw
      rw [if_neg (by simp [DF.isEv])] at h
      obtain ⟨n, hn, h⟩ := bind_ok.mp h
      have hn' : (Except.ok v : Py Int) = .ok n := hn
      rw [ok_inj] at hn'; subst hn'
      rw [if_neg (by omega)] at h
      obtain ⟨f, hf, h⟩ := bind_ok.mp h
      obtain ⟨s1, h1, h⟩ := bind_ok.mp h
      have hA : f.isAlways = true := InAlways.frame hi hf
      have R1 := inside_ranged hk (body_single ihb) h1 hA rfl rfl .turn
      obtain ⟨w, hw, h⟩ := bind_ok.mp h
      obtain ⟨x, rfl⟩ := R1.knows.eval hnext hw
      obtain ⟨n, hn, h⟩ := bind_ok.mp h
      have hn' : (Except.ok a' : Py Int) = .ok n := hn
      rw [ok_inj] at hn'; subst hn'
      obtain ⟨s2, h2, h⟩ := bind_ok.mp h
      have R2 := R1.trans (assignIter_ranged R1.knows hnext h2)
      rw [List.append_nil] at R2
      exact R2.trans (ihl _ _ _ _ (R2.always hi) R2.knows h)

theorem view_scopes (s : SV) : s.view.map (·.1) = s.scopes := by
  unfold SV.view SV.scopes
  rw [List.map_map]; rfl

/-- **C96 (partial)**: the visit of an always block adds a scope for the block and below it exactly the scopes of its statements,
in order and no others; for a for loop this is one scope for each turn of the loop, named by the value of the loop variable.  After
the block the names have the values the statements leave.  Missing: conditions with a negative value, which count as false
(`C96_negative_false`). -/
theorem C96_scopes_partial (T : ModTable) (rec : SV → Str → Py SV) (se : List SensItem) (b : Stmt) (s s' : SV) (σ σ' : GEnv)
    (sc : List (List Place)) (hk : s.Knows σ) (hb : StmtOpens ([] :: σ) (.stmts [b]) σ' sc)
    (h : MItem.scan T rec (.always .always se b) s = .ok s') :
    (∃ l keys, s'.scopes = s.scopes ++ (s.current ++ [⟨l, .always, none⟩]) :: keys ∧
      NamesFor (s.current ++ [⟨l, .always, none⟩]) keys sc) ∧ s'.current = s.current ∧ s'.Knows σ' := by
  simp only [MItem.scan] at h
  obtain ⟨r, hr, h⟩ := bind_ok.mp h
  obtain ⟨f, hf, h⟩ := bind_ok.mp h
  have hk' : s.Knows ([] :: σ) := by
    intro n v hn
    simp only [GEnv.get, Dict.get?_nil] at hn
    exact hk n v hn
  have R0 := label_ranged hk' hr
  have e0 := label_same hr
  have hsc : r.2.scopes = s.scopes := by rw [e0]; rfl
  unfold SV.inside at h
  obtain ⟨s1, h1, h⟩ := bind_ok.mp h
  obtain ⟨s2, h2, h⟩ := bind_ok.mp h
  rw [ok_inj] at h; subst h
  obtain ⟨k1, i1, c1, g, v1, _⟩ := addFrame_knows R0.knows h1 rfl rfl rfl
  have R := body_single (ran_all hb) s1 s2 i1 k1 h2
  obtain ⟨new, v2, hn⟩ := R.view
  refine ⟨⟨r.1, new.map (·.1), ?_, ?_⟩, R0.cur, ?_⟩
  · have : ({ s2 with current := r.2.current } : SV).scopes = s2.view.map (·.1) := by rw [view_scopes]; rfl
    rw [this, v2, v1, ← hsc, ← view_scopes r.2, ← R0.cur]
    simp
  · unfold NamesFor
    rw [List.forall₂_map_left_iff, ← R0.cur, ← c1]
    exact hn
  · refine leave_knows R0.knows h1 rfl rfl rfl ⟨new, v2⟩ ?_
    have e : ({ s2 with current := s1.current } : SV) = s2 := by rw [← R.cur]
    rw [e]; exact R.knows

theorem put_same {d : Dict Str Int} {σ : GEnv} {i : Str} (x : Int) : GEnv.get (d.set i x :: σ) i = some x := by
  simp [GEnv.get, Dict.get?_set]

theorem put_other {d : Dict Str Int} {σ : GEnv} {i n : Str} (x : Int) (h : n ≠ i) : GEnv.get (d.set i x :: σ) n = GEnv.get (d :: σ) n := by
  simp only [GEnv.get, Dict.get?_set, if_neg (Ne.symm h)]

/-- **C96**: `for (i = e; i < N; i = i + 1)` opens a scope for each of the values from that of `e` up to, but without, that of
`N`, and in each of them the scopes of the body. -/
theorem C96_turns {d : Dict Str Int} {σ : GEnv} {i N : Str} {e : Ex} {b : Stmt} {a v : Int} {sb : List (List Place)}
    (he : ConstVal (d :: σ) e a) (hN : GEnv.get (d :: σ) N = some v) (hNi : N ≠ i)
    (hb : ∀ x, a ≤ x → x < v → StmtOpens (d.set i x :: σ) (.stmts [b]) (d.set i x :: σ) sb) :
    StmtOpens (d :: σ) (.stmts [.fors (.ident [] i) e (.bin .lessThan (.ident [] i) (.ident [] N)) (.ident [] i)
        (.bin .plus (.ident [] i) (.intc ['1'])) b])
      (d.set i (max a v) :: σ)
      ((List.range (v - a).toNat).flatMap (fun (k : Nat) => [.turn (a + k)] :: sb.map (Place.turn (a + k) :: ·))) := by
  have hone : ∀ σ : GEnv, ConstVal σ (.intc ['1']) 1 := fun σ => .lit rfl rfl
  have loop : ∀ (m : Nat) (x : Int), a ≤ x → (v - x).toNat = m →
      StmtOpens (d.set i x :: σ) (.loop i x (.bin .lessThan (.ident [] i) (.ident [] N)) (.bin .plus (.ident [] i) (.intc ['1'])) b)
        (d.set i (max x v) :: σ)
        ((List.range m).flatMap (fun (k : Nat) => [.turn (x + k)] :: sb.map (Place.turn (x + k) :: ·))) := by
    intro m
    induction m with
    | zero =>
      intro x hx hm
      have : max x v = x := by omega
      rw [this]
      refine .stop (.bin (.name (put_same x)) (.name ((put_other x hNi).trans hN)) trivial ?_)
      intro w
      have : ¬ x < v := by omega
      simp [opSem, b2i, this]
    | succ m ih =>
      intro x hx hm
      have hlt : x < v := by omega
      have key := ih (x + 1) (by omega) (by omega)
      have hmax : max (x + 1) v = max x v := by omega
      rw [hmax] at key
      have hfl : (List.range (m + 1)).flatMap (fun (k : Nat) => [Place.turn (x + k)] :: sb.map (Place.turn (x + k) :: ·)) =
          ([Place.turn x] :: sb.map (Place.turn x :: ·)) ++
          (List.range m).flatMap (fun (k : Nat) => [Place.turn (x + 1 + k)] :: sb.map (Place.turn (x + 1 + k) :: ·)) := by
        rw [List.range_succ_eq_map, List.flatMap_cons, List.flatMap_map]
        have : ∀ k : Nat, x + ((k : Int) + 1) = x + 1 + k := by intro k; omega
        simp [this]
      rw [hfl]
      refine .turn (v := 1) (a' := x + 1) (.bin (.name (put_same x)) (.name ((put_other x hNi).trans hN)) trivial ?_) (by decide)
        (hb x hx hlt) (.bin (.name (put_same x)) (hone _) trivial (fun w => rfl)) ?_
      · intro w; simp [opSem, b2i, hlt]
      · rw [Dict.set_set]; exact key
  have := StmtOpens.fors (bs := []) he (loop _ a (Int.le_refl a) rfl) .nil
  rw [List.append_nil] at this
  exact this

/-- **C96**: a loop that does not change its variable does not keep the pass running: it is an error. -/
theorem C96_stuck {d : Dict Str Int} {σ : GEnv} {i : Str} {e c next : Ex} {b : Stmt} {a v : Int} {sb : List (List Place)} {s s' : SV}
    (hi : ∃ f, s.frames.get? s.current = some f ∧ f.isAlways = true) (hk : s.Knows (d :: σ)) (he : ConstVal (d :: σ) e a)
    (hc : ConstVal (d.set i a :: σ) c v) (hv : 0 < v) (hn : ConstVal (d.set i a :: σ) next a)
    (hb : StmtOpens (d.set i a :: σ) (.stmts [b]) (d.set i a :: σ) sb) :
    Stmt.scan (.fors (.ident [] i) e c (.ident [] i) next b) s ≠ .ok s' := by
  intro h
  have hi' : s.InAlways := by
    obtain ⟨f, hf, ha⟩ := hi
    exact ⟨f.core, by unfold SV.view; rw [Dict.get?_map, hf]; rfl, ha⟩
  simp only [Stmt.scan, SV.visitFor] at h
  obtain ⟨w, hw, h⟩ := bind_ok.mp h
  obtain ⟨x, rfl⟩ := hk.eval he hw
  obtain ⟨n, hn', h⟩ := bind_ok.mp h
  have hn2 : (Except.ok a : Py Int) = .ok n := hn'
  rw [ok_inj] at hn2; subst hn2
  obtain ⟨s1, h1, h⟩ := bind_ok.mp h
  obtain ⟨r, hr, h⟩ := bind_ok.mp h
  have R1 := assignIter_ranged hk he h1
  have R2 := R1.after (label_ranged R1.knows hr)
  have hI := R2.always hi'
  -- one turn
  have turn : ∀ (k : Nat) (t t' : SV), t.InAlways → t.Knows (d.set i a :: σ) →
      SV.forLoop r.1 c (.ident [] i) next (Stmt.scan b) k a t = .ok t' →
      t.view.has (t.current ++ [⟨r.1, .for_, some a⟩]) = false ∧ ∃ k' t1, t1.InAlways ∧ t1.Knows (d.set i a :: σ) ∧
        t1.view.has (t1.current ++ [⟨r.1, .for_, some a⟩]) = true ∧
        SV.forLoop r.1 c (.ident [] i) next (Stmt.scan b) k' a t1 = .ok t' := by
    intro k t t' hi hk h
    cases k with
    | zero => simp [SV.forLoop] at h
    | succ k =>
      simp only [SV.forLoop] at h
      obtain ⟨w, hw, h⟩ := bind_ok.mp h
      obtain ⟨x, rfl⟩ := hk.eval hc hw
      rw [if_neg (by simp [DF.isEv])] at h
      obtain ⟨n, hn', h⟩ := bind_ok.mp h
      have hn2 : (Except.ok v : Py Int) = .ok n := hn'
      rw [ok_inj] at hn2; subst hn2
      rw [if_neg (by omega)] at h
      obtain ⟨f, hf, h⟩ := bind_ok.mp h
      obtain ⟨s1, h1, h⟩ := bind_ok.mp h
      have hA : f.isAlways = true := InAlways.frame hi hf
      have Q1 := inside_ranged hk (body_single (ran_all hb)) h1 hA rfl rfl (.turn (v := a))
      obtain ⟨w, hw, h⟩ := bind_ok.mp h
      obtain ⟨x, rfl⟩ := Q1.knows.eval hn hw
      obtain ⟨n, hn', h⟩ := bind_ok.mp h
      have hn2 : (Except.ok a : Py Int) = .ok n := hn'
      rw [ok_inj] at hn2; subst hn2
      obtain ⟨s2, h2, h⟩ := bind_ok.mp h
      have Q2 := assignIter_ranged Q1.knows hn h2
      have Q3 := Q1.trans Q2
      refine ⟨?_, k, s2, Q3.always hi, ?_, ?_, h⟩
      · unfold SV.inside at h1
        obtain ⟨q, hq, _⟩ := bind_ok.mp h1
        exact (addFrame_ok hq).1
      · have := Q3.knows
        rw [Dict.set_set] at this
        exact this
      · unfold SV.inside at h1
        obtain ⟨q, hq, h1⟩ := bind_ok.mp h1
        obtain ⟨q2, hq2, h1⟩ := bind_ok.mp h1
        rw [ok_inj] at h1
        obtain ⟨qk, qi, qc, g, hqv, hqg, _⟩ := addFrame_knows hk hq hA rfl rfl
        obtain ⟨n1, hv1, _⟩ := (body_single (ran_all hb) q q2 qi qk hq2).view
        obtain ⟨n2, hv2, _⟩ := Q2.view
        have e1 : s1.view = q2.view := by rw [← h1]; rfl
        rw [Q3.cur]
        refine Dict.has_of_get? (v := g) ?_
        have hh : q2.view.get? (t.current ++ [⟨r.1, .for_, some a⟩]) = some g := by
          rw [hv1, Dict.get?_append (Dict.has_of_get? hqg), hqg]
        rw [hv2, e1, Dict.get?_append (Dict.has_of_get? hh), hh]
  obtain ⟨_, k', t1, i1, k1, hh, h⟩ := turn _ _ _ hI R2.knows h
  obtain ⟨hh', _⟩ := turn _ _ _ i1 k1 h
  rw [hh] at hh'
  cases hh'

/-- **C96, refuted in general**: a condition with a negative value, which is true, ends the loop: no turn is opened. -/
theorem C96_negative_false {d : Dict Str Int} {σ : GEnv} {i : Str} {e c next : Ex} {b : Stmt} {a v : Int} {s s' : SV}
    (hk : s.Knows (d :: σ)) (he : ConstVal (d :: σ) e a) (hc : ConstVal (d.set i a :: σ) c v) (hv : v < 0)
    (h : Stmt.scan (.fors (.ident [] i) e c (.ident [] i) next b) s = .ok s') : s'.scopes = s.scopes := by
  simp only [Stmt.scan, SV.visitFor] at h
  obtain ⟨w, hw, h⟩ := bind_ok.mp h
  obtain ⟨x, rfl⟩ := hk.eval he hw
  obtain ⟨n, hn', h⟩ := bind_ok.mp h
  have hn2 : (Except.ok a : Py Int) = .ok n := hn'
  rw [ok_inj] at hn2; subst hn2
  obtain ⟨s1, h1, h⟩ := bind_ok.mp h
  obtain ⟨r, hr, h⟩ := bind_ok.mp h
  have R1 := assignIter_ranged hk he h1
  have R2 := label_ranged R1.knows hr
  have e1 : s1.view = s.view := by
    simp only [SV.assignIter] at h1
    obtain ⟨_, _, h1⟩ := bind_ok.mp h1
    obtain ⟨_, _, h1⟩ := bind_ok.mp h1
    rw [ok_inj] at h1; rw [← h1]; rfl
  have e2 : r.2.view = s1.view := by rw [label_same hr]; rfl
  have e3 : r.2.scopes = s.scopes := by rw [← view_scopes, ← view_scopes, e2, e1]
  generalize r.2.loops = k at h
  cases k with
  | zero => simp [SV.forLoop] at h
  | succ k =>
    simp only [SV.forLoop] at h
    obtain ⟨w, hw, h⟩ := bind_ok.mp h
    obtain ⟨x, rfl⟩ := R2.knows.eval hc hw
    rw [if_neg (by simp [DF.isEv])] at h
    obtain ⟨n, hn', h⟩ := bind_ok.mp h
    have hn2 : (Except.ok v : Py Int) = .ok n := hn'
    rw [ok_inj] at hn2; subst hn2
    rw [if_pos (by omega), ok_inj] at h
    rw [← h]; exact e3

/-! ### A design -/

private abbrev num (n : Nat) : Ex := .intc (natStr n)

private def c96body : Stmt := .block none [.nb (.ptr (.ident [] "r".toList) (.ident [] "i".toList)) (.ident [] "a".toList),
  .ifs (.ident [] "a".toList) (.nb (.ident [] "q".toList) (num 1)) (.block (some "g".toList) [])]

private def c96loop (c : Ex) : Stmt := .fors (.ident [] "i".toList) (num 1) c (.ident [] "i".toList)
  (.bin .plus (.ident [] "i".toList) (.intc ['1'])) c96body

/-- `parameter N = 3; integer i; always @(*) for (i = 1; i < N; i = i + 1) …` -/
def c96top (c : Ex) : ModuleDef where
  name := "top".toList
  params := []
  ports := []
  items := [.decl [.param false { name := "N".toList, value := num 3 }], .decl [.int "i".toList none],
    .always .always [] (c96loop c)]

/-- The state in front of the always block. -/
def c96state : SV :=
  match signalPass c85ctx 100 100 10 [{ c96top (num 0) with items := (c96top (num 0)).items.take 2 }] "top".toList with
  | .ok s => { s with current := [⟨"top".toList, .module, none⟩] }
  | .error _ => { frames := [], current := [], octx := c85ctx, fuel := 0, loops := 0 }

private def c96table : ModTable := ⟨[], none⟩

private abbrev lt : Ex := .bin .lessThan (.ident [] "i".toList) (.ident [] "N".toList)

theorem c96knows : c96state.Knows [[("N".toList, 3)]] := by
  intro n v h
  simp only [GEnv.get, Dict.get?_cons, Dict.get?_nil] at h
  by_cases e : "N".toList = n
  · rw [if_pos e] at h
    simp only [Option.some.injEq] at h
    subst e h
    exact ⟨32, by rfl⟩
  · rw [if_neg e] at h
    cases h

theorem c96opens : StmtOpens ([] :: [[("N".toList, 3)]]) (.stmts [c96loop lt]) ([("i".toList, 3)] :: [[("N".toList, 3)]])
    [[.turn 1], [.turn 1, .block none], [.turn 1, .block none, .arm true], [.turn 1, .block none, .arm false],
      [.turn 1, .block none, .arm false, .block (some "g".toList)],
     [.turn 2], [.turn 2, .block none], [.turn 2, .block none, .arm true], [.turn 2, .block none, .arm false],
      [.turn 2, .block none, .arm false, .block (some "g".toList)]] := by
  refine C96_turns (d := []) (a := 1) (v := 3) (b := c96body)
    (sb := [[.block none], [.block none, .arm true], [.block none, .arm false], [.block none, .arm false, .block (some "g".toList)]])
    (.lit rfl rfl) rfl (by decide) ?_
  intro x _ _
  have hg : StmtOpens ([("i".toList, x)] :: [[("N".toList, 3)]]) (.stmts [.block (some "g".toList) []])
      ([("i".toList, x)] :: [[("N".toList, 3)]]) [[.block (some "g".toList)]] := .block .nil .nil
  exact .block (.nb (.ifs (by simp) (by simp) (.nb .nil) hg .nil)) .nil

example : ∃ s', MItem.scan c96table (fun s _ => .ok s) (.always .always [] (c96loop lt)) c96state = .ok s' ∧ s'.scopes.length = 12 := by
  cases h : MItem.scan c96table (fun s _ => .ok s) (.always .always [] (c96loop lt)) c96state with
  | ok s' =>
    obtain ⟨⟨l, keys, h1, h2⟩, _⟩ := C96_scopes_partial _ _ _ _ _ _ _ _ _ c96knows c96opens h
    refine ⟨s', rfl, ?_⟩
    have := h2.length_eq
    rw [h1, List.length_append, List.length_cons, this]
    rfl
  | error _ =>
    have : (match MItem.scan c96table (fun s _ => .ok s) (.always .always [] (c96loop lt)) c96state with
      | .ok _ => true | .error _ => false) = true := by decide +kernel
    rw [h] at this
    exact absurd this (by simp)

/-- The values of the loops in the names of the scopes of a state. -/
private def turnsOf (s : SV) : List Int := s.scopes.filterMap (fun c => c.getLast?.bind (·.loop))

/-- The same design from its modules. -/
example : (match signalPass c85ctx 100 100 10 [c96top lt] "top".toList with
    | .ok s => (s.scopes.length, turnsOf s)
    | .error _ => (0, [])) = (12, [1, 2]) := by decide +kernel

/-- A negative condition, `i - N`: no turn. -/
example : (match signalPass c85ctx 100 100 10 [c96top (.bin .minus (.ident [] "i".toList) (.ident [] "N".toList))] "top".toList with
    | .ok s => (s.scopes.length, turnsOf s)
    | .error _ => (0, [])) = (2, []) := by decide +kernel

example : ConstVal (Dict.set [] "i".toList 1 :: [[("N".toList, 3)]]) (.bin .minus (.ident [] "i".toList) (.ident [] "N".toList)) (-2) :=
  .bin (.name rfl) (.name rfl) trivial (fun _ => rfl)

/-- A loop that keeps its variable. -/
private def c96same : Stmt := .fors (.ident [] "i".toList) (num 1) lt (.ident [] "i".toList) (.ident [] "i".toList) (.block none [])

private def c96frame : SFrame := { previous := [], isAlways := true }

/-- The state inside the always block. -/
private def c96in : SV :=
  match c96state.addFrame ⟨"a".toList, .always, none⟩ c96frame with
  | .ok s => s
  | .error _ => c96state

example : ∀ s', Stmt.scan c96same c96in ≠ .ok s' := by
  intro s'
  have ha : c96state.addFrame ⟨"a".toList, .always, none⟩ c96frame = .ok c96in := rfl
  obtain ⟨hk, _⟩ := addFrame_knows c96knows ha rfl rfl rfl
  have hk' : c96in.Knows [[], [("N".toList, 3)]] := by
    intro n v hn
    simp only [GEnv.get, Dict.get?_nil] at hn
    exact hk n v hn
  exact C96_stuck (v := 1) (sb := [[.block none]]) ⟨_, rfl, rfl⟩ hk' (.lit rfl rfl)
    (.bin (.name rfl) (.name rfl) trivial (fun _ => rfl)) (by decide) (.name rfl) (.block .nil .nil)

example : (match signalPass c85ctx 100 100 10 [{ c96top lt with items := (c96top lt).items.take 2 ++ [.always .always [] c96same] }] "top".toList with
    | .error .definition => true
    | _ => false) = true := by decide +kernel

end Pyv
