import Verif.Props.GenItem
/-
  C86: the frames of a design form a tree, whatever the design.
-/
namespace Pyv

/-- A frame directly below another one. -/
def childOf (c k : ScopeChain) : Bool := decide (k.dropLast = c) && decide (k.length = c.length + 1)

/-- The list `next` of every frame names the frames directly below it, in the order of the table. -/
structure ScopeTree (fr : Dict ScopeChain SFrame) : Prop where
  nodup : (fr.map (·.1)).Nodup
  next : ∀ c f, fr.get? c = some f → f.next = (fr.map (·.1)).filter (childOf c)
  parent : ∀ c l, fr.has (c ++ [l]) = true → c ≠ [] → fr.has c = true
  typed : ∀ c l, fr.has c = true → l ∈ c → l.type ≠ .any

/-- The table is a tree and the current frame is in it. -/
structure SV.Tree (s : SV) : Prop where
  tree : ScopeTree s.frames
  cur : s.frames.has s.current = true

/-- A step keeps the tree and the frames. -/
def Evo (s s' : SV) : Prop := s.Tree → s'.Tree ∧ ∀ c, s.frames.has c = true → s'.frames.has c = true

theorem Evo.refl (s : SV) : Evo s s := fun h => ⟨h, fun _ h => h⟩

theorem Evo.trans {s s1 s2 : SV} (h1 : Evo s s1) (h2 : Evo s1 s2) : Evo s s2 := by
  intro h
  obtain ⟨t1, k1⟩ := h1 h
  obtain ⟨t2, k2⟩ := h2 t1
  exact ⟨t2, fun c hc => k2 c (k1 c hc)⟩

theorem Evo.same {s s' : SV} (hf : s'.frames = s.frames) (hc : s'.current = s.current) : Evo s s' := by
  intro h
  exact ⟨⟨by rw [hf]; exact h.tree, by rw [hf, hc]; exact h.cur⟩, by rw [hf]; exact fun _ h => h⟩

/-- Back to a frame of before. -/
theorem Evo.back {s s' : SV} (h : Evo s s') : Evo s { s' with current := s.current } := by
  intro ht
  obtain ⟨t, k⟩ := h ht
  exact ⟨⟨t.tree, k _ ht.cur⟩, k⟩

theorem keys_set_has {κ α : Type} [DecidableEq κ] : ∀ {d : Dict κ α} {k : κ} {v : α}, d.has k = true →
    (Dict.set d k v).map (·.1) = d.map (·.1)
  | [], _, _, h => by simp [Dict.has] at h
  | (a, b) :: d, k, v, h => by
    simp only [Dict.set]
    split
    · rename_i e; subst e; rfl
    · rename_i e
      have : Dict.has d k = true := by simpa [Dict.has, e] using h
      simp only [List.map_cons, keys_set_has this]

/-- The variables of a frame change. -/
theorem tree_set {fr : Dict ScopeChain SFrame} {c f f'} (h : ScopeTree fr) (hf : fr.get? c = some f) (hn : f'.next = f.next) :
    ScopeTree (Dict.set fr c f') := by
  have hk := keys_set_has (v := f') (Dict.has_of_get? hf)
  refine ⟨by rw [hk]; exact h.nodup, ?_, ?_, fun c' l hh hl => h.typed c' l (by rwa [Dict.has_iff_key, hk, ← Dict.has_iff_key] at hh) hl⟩
  · intro c' g hg
    rw [Dict.get?_set] at hg
    rw [hk]
    split at hg
    · rename_i e
      subst e
      simp only [Option.some.injEq] at hg
      subst hg
      rw [hn]; exact h.next _ _ hf
    · exact h.next _ _ hg
  · intro c' l hh hc
    rw [Dict.has_iff_key, hk, ← Dict.has_iff_key] at hh ⊢
    exact h.parent c' l hh hc

theorem modify_evo {s s' : SV} {g : SFrame → SFrame} (hg : ∀ f, (g f).next = f.next) (h : s.modify g = .ok s') : Evo s s' := by
  unfold SV.modify at h
  obtain ⟨f, hf, h⟩ := bind_ok.mp h
  rw [ok_inj] at h
  subst h
  have hf := Dict.get_ok.mp hf
  intro ht
  exact ⟨⟨tree_set ht.tree hf (hg f), by rw [Dict.has_set]; simp⟩, by intro c hc; rw [Dict.has_set, hc]; simp⟩

theorem addFrame_evo {s s' : SV} {l f} (hl : l.type ≠ .any) (hf : f.next = []) (h : s.addFrame l f = .ok s') : Evo s s' := by
  intro ht
  unfold SV.addFrame at h
  simp only at h
  split at h
  · simp at h
  · rename_i hn
    have hn' : s.frames.has (s.current ++ [l]) = false := by simpa using hn
    rw [ok_inj] at h
    subst h
    cases hc : s.frames.get? s.current with
    | none => have := ht.cur; rw [Dict.has_eq, hc] at this; simp at this
    | some p =>
      simp only [hc]
      have hfresh : (Dict.set s.frames s.current { p with next := p.next ++ [s.current ++ [l]] }).has (s.current ++ [l]) = false := by
        rw [Dict.has_set, hn']; simp
      have hk1 := keys_set_has (v := { p with next := p.next ++ [s.current ++ [l]] }) ht.cur
      have hkeys : ∀ v, (Dict.set (Dict.set s.frames s.current { p with next := p.next ++ [s.current ++ [l]] }) (s.current ++ [l]) v).map (·.1)
          = s.frames.map (·.1) ++ [s.current ++ [l]] := by
        intro v; rw [Dict.set_fresh hfresh, List.map_append, hk1]; rfl
      have hold : ∀ c, s.frames.has c = true → c ≠ s.current ++ [l] := by
        rintro c hc rfl; rw [hn'] at hc; simp at hc
      have hnk : s.current ++ [l] ∉ s.frames.map (·.1) := by
        intro hm; rw [← Dict.has_iff_key, hn'] at hm; simp at hm
      refine ⟨⟨⟨?_, ?_, ?_, ?_⟩, by rw [Dict.has_set]; simp⟩, ?_⟩
      · rw [hkeys, List.nodup_append]
        refine ⟨ht.tree.nodup, by simp, ?_⟩
        intro a ha b hb e
        simp only [List.mem_singleton] at hb
        rw [e, hb] at ha
        exact hnk ha
      · intro c g hg
        rw [hkeys, List.filter_append]
        rw [Dict.get?_set] at hg
        split at hg
        · rename_i e
          subst e
          simp only [Option.some.injEq] at hg
          subst hg
          rw [show ({ f with previous := s.current } : SFrame).next = [] from hf]
          symm
          rw [List.append_eq_nil_iff]
          constructor
          · rw [List.filter_eq_nil_iff]
            intro k hk hch
            simp only [childOf, Bool.and_eq_true, decide_eq_true_eq] at hch
            have hk' := Dict.has_iff_key.mpr hk
            have hne : k ≠ [] := by rintro rfl; simp at hch
            rw [← List.dropLast_append_getLast hne, hch.1] at hk'
            have := ht.tree.parent _ _ hk' (by simp)
            rw [hn'] at this; simp at this
          · simp [childOf]
        · rename_i hne
          rw [Dict.get?_set] at hg
          split at hg
          · rename_i e
            subst e
            simp only [Option.some.injEq] at hg
            subst hg
            simp only
            rw [ht.tree.next _ _ hc]
            simp [childOf]
          · rename_i hne2
            rw [ht.tree.next _ _ hg]
            have : childOf c (s.current ++ [l]) = false := by
              simp only [childOf, List.dropLast_concat]
              rw [decide_eq_false hne2]; rfl
            simp [this]
      · intro c l' hh hcn
        rw [Dict.has_iff_key, hkeys] at hh ⊢
        rw [List.mem_append] at hh ⊢
        left
        rw [← Dict.has_iff_key]
        rcases hh with hh | hh
        · exact ht.tree.parent c l' (Dict.has_iff_key.mpr hh) hcn
        · simp only [List.mem_singleton] at hh
          have := (List.append_inj' hh rfl).1
          rw [this]; exact ht.cur
      · intro c l' hh hm
        rw [Dict.has_iff_key, hkeys, List.mem_append, ← Dict.has_iff_key] at hh
        rcases hh with hh | hh
        · exact ht.tree.typed c l' hh hm
        · rw [List.mem_singleton] at hh
          rw [hh, List.mem_append, List.mem_singleton] at hm
          rcases hm with hm | hm
          · exact ht.tree.typed _ l' ht.cur hm
          · rw [hm]; exact hl
      · intro c hc
        rw [Dict.has_set, Dict.has_set, hc]; simp

/-! ### The steps -/

/-- A part of the pass keeps the tree. -/
def Evolves (F : SV → Py SV) : Prop := ∀ s s', F s = .ok s' → Evo s s'

theorem inside_evo {s s' : SV} {l f body} (hl : l.type ≠ .any) (hb : Evolves body) (hf : f.next = []) (h : s.inside l f body = .ok s') : Evo s s' := by
  unfold SV.inside at h
  obtain ⟨s1, h1, h⟩ := bind_ok.mp h
  obtain ⟨s2, h2, h⟩ := bind_ok.mp h
  rw [ok_inj] at h; subst h
  exact ((addFrame_evo hl hf h1).trans (hb _ _ h2)).back

theorem label_evo {s : SV} {n r} (h : s.label n = .ok r) : Evo s r.2 := by
  have e := label_same h
  exact Evo.same (by rw [e]) (by rw [e])

theorem side_evo {s s' : SV} {l c b body} (hb : Evolves body) (h : s.side l c b body = .ok s') : Evo s s' := by
  unfold SV.side at h
  obtain ⟨f, _, h⟩ := bind_ok.mp h
  exact inside_evo (by simp) hb rfl h

theorem visitIf_evo {c a b vt vf} (ht : Evolves vt) (hf : Evolves vf) : Evolves (SV.visitIf c a vt b vf) := by
  intro s s' h
  unfold SV.visitIf at h
  obtain ⟨f, _, h⟩ := bind_ok.mp h
  split at h
  · obtain ⟨v, _, h⟩ := bind_ok.mp h
    split at h
    · simp at h
    · obtain ⟨n, _, h⟩ := bind_ok.mp h
      split at h
      · split at h
        · rw [ok_inj] at h; subst h; exact .refl s
        · obtain ⟨r, hr, h⟩ := bind_ok.mp h
          exact (label_evo hr).trans (side_evo ht h)
      · obtain ⟨r, hr, h⟩ := bind_ok.mp h
        split at h
        · rw [ok_inj] at h; subst h; exact label_evo hr
        · exact (label_evo hr).trans (side_evo hf h)
  · split at h
    · split at h
      · rw [ok_inj] at h; subst h; exact .refl s
      · simp at h
    · obtain ⟨r, hr, h⟩ := bind_ok.mp h
      obtain ⟨s1, h1, h⟩ := bind_ok.mp h
      have e := (label_evo hr).trans (side_evo ht h1)
      split at h
      · rw [ok_inj] at h; subst h; exact e
      · exact e.trans (side_evo hf h)

theorem assignIter_evo {s s' : SV} {l r} (h : s.assignIter l r = .ok s') : Evo s s' := by
  unfold SV.assignIter at h
  split at h
  · obtain ⟨c, _, h⟩ := bind_ok.mp h
    obtain ⟨v, _, h⟩ := bind_ok.mp h
    rw [ok_inj] at h; subst h
    exact .same rfl rfl
  · simp at h

theorem forLoop_evo {label c ql qr body} (hb : Evolves body) : ∀ k n, Evolves (SV.forLoop label c ql qr body k n) := by
  intro k
  induction k with
  | zero => intro n s s' h; simp [SV.forLoop] at h
  | succ k ih =>
    intro n s s' h
    simp only [SV.forLoop] at h
    obtain ⟨v, _, h⟩ := bind_ok.mp h
    split at h
    · simp at h
    · obtain ⟨x, _, h⟩ := bind_ok.mp h
      split at h
      · rw [ok_inj] at h; subst h; exact .refl s
      · obtain ⟨f, _, h⟩ := bind_ok.mp h
        obtain ⟨s1, h1, h⟩ := bind_ok.mp h
        obtain ⟨w, _, h⟩ := bind_ok.mp h
        obtain ⟨m, _, h⟩ := bind_ok.mp h
        obtain ⟨s2, h2, h⟩ := bind_ok.mp h
        exact ((inside_evo (by simp) hb rfl h1).trans (assignIter_evo h2)).trans (ih m _ _ h)

theorem visitFor_evo {pl pr c ql qr body} (hb : Evolves body) : Evolves (SV.visitFor pl pr c ql qr body) := by
  intro s s' h
  unfold SV.visitFor at h
  obtain ⟨w, _, h⟩ := bind_ok.mp h
  obtain ⟨n, _, h⟩ := bind_ok.mp h
  obtain ⟨s1, h1, h⟩ := bind_ok.mp h
  obtain ⟨r, hr, h⟩ := bind_ok.mp h
  exact ((assignIter_evo h1).trans (label_evo hr)).trans (forLoop_evo hb _ _ _ _ h)

theorem visitBlock_evo {n body} (hb : Evolves body) : Evolves (SV.visitBlock n body) := by
  intro s s' h
  unfold SV.visitBlock at h
  obtain ⟨r, hr, h⟩ := bind_ok.mp h
  obtain ⟨f, _, h⟩ := bind_ok.mp h
  have e : Evo s r.2 := by
    cases n with
    | some n => simp only [ok_inj] at hr; subst hr; exact .refl s
    | none => exact label_evo hr
  exact e.trans (inside_evo (by simp) hb rfl h)

mutual
theorem stmt_evo : ∀ (b : Stmt), Evolves (Stmt.scan b)
  | .skip => by intro s s' h; simp only [Stmt.scan, ok_inj] at h; subst h; exact .refl s
  | .nb _ _ => by intro s s' h; simp only [Stmt.scan, ok_inj] at h; subst h; exact .refl s
  | .ba _ _ => by intro s s' h; simp only [Stmt.scan, ok_inj] at h; subst h; exact .refl s
  | .whiles _ _ => by intro s s' h; simp only [Stmt.scan, ok_inj] at h; subst h; exact .refl s
  | .ifs c t f => by
    intro s s' h
    simp only [Stmt.scan] at h
    exact visitIf_evo (stmt_evo t) (stmt_evo f) s s' h
  | .block n ss => by
    intro s s' h
    simp only [Stmt.scan] at h
    exact visitBlock_evo (stmts_evo ss) s s' h
  | .fors pl pr c ql qr b => by
    intro s s' h
    simp only [Stmt.scan] at h
    exact visitFor_evo (stmt_evo b) s s' h
  | .cases k comp conds bodies => by
    intro s s' h
    cases k with
    | casez => simp only [Stmt.scan] at h; exact stmts_evo bodies s s' h
    | unique => simp only [Stmt.scan] at h; exact stmts_evo bodies s s' h
    | _ =>
      simp only [Stmt.scan] at h
      obtain ⟨s1, h1, h⟩ := bind_ok.mp h
      rw [ok_inj] at h; subst h
      exact (cases_evo comp conds bodies s s1 h1).back
theorem stmts_evo : ∀ (bs : List Stmt), Evolves (Stmt.scanList bs)
  | [] => by intro s s' h; simp only [Stmt.scanList, ok_inj] at h; subst h; exact .refl s
  | b :: bs => by
    intro s s' h
    simp only [Stmt.scanList] at h
    obtain ⟨s1, h1, h⟩ := bind_ok.mp h
    exact (stmt_evo b s s1 h1).trans (stmts_evo bs s1 s' h)
theorem cases_evo (comp : Ex) : ∀ (cs : List (Option (List Ex))) (bs : List Stmt), Evolves (Stmt.scanCases comp cs bs)
  | c :: cs, b :: bs => by
    intro s s' h
    simp only [Stmt.scanCases] at h
    obtain ⟨e, _, h⟩ := bind_ok.mp h
    obtain ⟨r, h1, h⟩ := bind_ok.mp h
    obtain ⟨s1, h2, h⟩ := bind_ok.mp h
    have q := (label_evo h1).trans (side_evo (stmt_evo b) h2)
    split at h
    · rw [ok_inj] at h; subst h; exact q
    · obtain ⟨f, _, h⟩ := bind_ok.mp h
      obtain ⟨s2, h3, h⟩ := bind_ok.mp h
      exact (q.trans (addFrame_evo (by simp) rfl h3)).trans (cases_evo comp cs bs s2 s' h)
  | [], _ => by intro s s' h; simp only [Stmt.scanCases, ok_inj] at h; subst h; exact .refl s
  | _ :: _, [] => by intro s s' h; simp only [Stmt.scanCases, ok_inj] at h; subst h; exact .refl s
end

theorem foldlM_evo {α : Type} {F : SV → α → Py SV} (hF : ∀ a, Evolves (fun s => F s a)) : ∀ (l : List α), Evolves (fun s => l.foldlM F s) := by
  intro l
  induction l with
  | nil => intro s s' h; simp only [List.foldlM_nil, py_pure, ok_inj] at h; subst h; exact .refl s
  | cons a l ih =>
    intro s s' h
    simp only [List.foldlM_cons] at h
    obtain ⟨s1, h1, h⟩ := bind_ok.mp h
    exact (hF a s s1 h1).trans (ih s1 s' h)

theorem visitNode_evo (x : DItem) : Evolves (fun s => s.visitNode x) := by
  intro s s' h
  have sig : ∀ {n b}, s.addSignal n x b = .ok s' → Evo s s' := by
    intro n b h
    unfold SV.addSignal at h
    split at h
    · rw [ok_inj] at h; subst h; exact .refl s
    · exact modify_evo (fun f => by rfl) h
  cases x with
  | var v => exact sig h
  | int n v => exact sig h
  | supply n a b c => exact sig h
  | real n => simp only [SV.visitNode, ok_inj] at h; subst h; exact .refl s
  | assign l r => simp only [SV.visitNode, ok_inj] at h; subst h; exact .refl s
  | genvar n =>
    simp only [SV.visitNode] at h
    obtain ⟨s1, h1, h⟩ := bind_ok.mp h
    have e : Evo s s1 := modify_evo (fun f => by rfl) h1
    split at h
    · rw [ok_inj] at h; subst h; exact e
    · rw [ok_inj] at h; subst h; exact e.trans (.same rfl rfl)
  | param loc p =>
    simp only [SV.visitNode] at h
    obtain ⟨s1, h1, h⟩ := bind_ok.mp h
    have e : Evo s s1 := modify_evo (fun f => by rfl) h1
    split at h
    · rw [ok_inj] at h; subst h; exact e
    · obtain ⟨v, _, h⟩ := bind_ok.mp h
      rw [ok_inj] at h; subst h; exact e.trans (.same rfl rfl)

theorem constTerms_evo : Evolves SV.constTerms := by
  intro s s' h
  unfold SV.constTerms at h
  obtain ⟨ds, _, h⟩ := bind_ok.mp h
  refine foldlM_evo ?_ ds s s' h
  intro d s s' h
  obtain ⟨t, _, h⟩ := bind_ok.mp h
  rw [ok_inj] at h; subst h; exact .same rfl rfl

theorem simpleTerms_evo : Evolves SV.simpleTerms := by
  intro s s' h
  unfold SV.simpleTerms at h
  obtain ⟨ds, _, h⟩ := bind_ok.mp h
  refine foldlM_evo ?_ ds s s' h
  intro d s s' h
  simp only at h
  split at h
  · simp at h
  · obtain ⟨t, _, h⟩ := bind_ok.mp h
    rw [ok_inj] at h; subst h; exact .same rfl rfl

theorem constPass_evo {scope} : ∀ (ds : List ConstDef) s r, SV.constPass scope ds s = .ok r → Evo s r.1 := by
  intro ds
  induction ds with
  | nil => intro s r h; simp only [SV.constPass, ok_inj] at h; subst h; exact .refl s
  | cons d ds ih =>
    intro s r h
    simp only [SV.constPass] at h
    split at h
    · exact ih s r h
    · split at h
      · exact ih s r h
      · obtain ⟨v, _, h⟩ := bind_ok.mp h
        split at h
        · exact (Evo.same (s := s) (s' := s.setConst _ v) rfl rfl).trans (ih _ r h)
        · obtain ⟨r1, h1, h⟩ := bind_ok.mp h
          rw [ok_inj] at h; subst h
          exact ih _ r1 h1

theorem constLoop_evo {scope ds} : ∀ k, Evolves (SV.constLoop scope ds k) := by
  intro k
  induction k with
  | zero => intro s s' h; simp [SV.constLoop] at h
  | succ k ih =>
    intro s s' h
    simp only [SV.constLoop] at h
    obtain ⟨r, h1, h⟩ := bind_ok.mp h
    have e := constPass_evo ds s r h1
    split at h
    · rw [ok_inj] at h; subst h; exact e
    · exact e.trans (ih _ _ h)

theorem stackInstance_evo {T : ModTable} {n m} : Evolves (fun s => s.stackInstance T n m) := by
  intro s s' h
  simp only [SV.stackInstance] at h
  obtain ⟨s1, h1, h⟩ := bind_ok.mp h
  obtain ⟨sg, _, h⟩ := bind_ok.mp h
  obtain ⟨cs, _, h⟩ := bind_ok.mp h
  exact (addFrame_evo (by simp) rfl h1).trans (modify_evo (fun f => by rfl) h)

theorem instBody_evo {T : ModTable} {rec : SV → Str → Py SV} (hrec : ∀ n, Evolves (fun s => rec s n)) {mod params name} :
    Evolves (fun s => s.visitInstBody T rec mod params name) := by
  intro s s' h
  simp only [SV.visitInstBody] at h
  split at h
  · rw [ok_inj] at h; subst h; exact .refl s
  · split at h
    · simp at h
    · obtain ⟨s1, h1, h⟩ := bind_ok.mp h
      obtain ⟨s2, h2, h⟩ := bind_ok.mp h
      obtain ⟨names, _, h⟩ := bind_ok.mp h
      obtain ⟨s3, h3, h⟩ := bind_ok.mp h
      obtain ⟨ds, _, h⟩ := bind_ok.mp h
      obtain ⟨s4, h4, h⟩ := bind_ok.mp h
      obtain ⟨s5, h5, h⟩ := bind_ok.mp h
      obtain ⟨s6, h6, h7⟩ := bind_ok.mp h
      rw [ok_inj] at h7; subst h7
      refine Evo.back (s' := s6) ?_
      have e3 : Evo s2 s3 := by
        refine foldlM_evo (F := SV.instParam names s.current) ?_ _ s2 s3 h3
        intro p s s' h
        simp only [SV.instParam] at h
        obtain ⟨n, _, h⟩ := bind_ok.mp h
        split at h
        · split at h
          · simp at h
          · obtain ⟨v, _, h⟩ := bind_ok.mp h
            obtain ⟨c, _, h⟩ := bind_ok.mp h
            rw [ok_inj] at h; subst h; exact .same rfl rfl
        · simp at h
      exact (((((stackInstance_evo _ _ h1).trans (simpleTerms_evo _ _ h2)).trans e3).trans (constLoop_evo _ _ _ h4)).trans
        (constTerms_evo _ _ h5)).trans (hrec mod _ _ h6)

theorem inst_evo {T : ModTable} {rec : SV → Str → Py SV} (hrec : ∀ n, Evolves (fun s => rec s n)) {mod params} (i : Inst) :
    Evolves (fun s => SV.visitInst T rec mod params s i) := by
  intro s s' h
  simp only [SV.visitInst] at h
  split at h
  · exact instBody_evo hrec _ _ h
  · split at h
    · simp at h
    · obtain ⟨_, _, h⟩ := bind_ok.mp h
      obtain ⟨_, _, h⟩ := bind_ok.mp h
      obtain ⟨_, _, h⟩ := bind_ok.mp h
      obtain ⟨_, _, h⟩ := bind_ok.mp h
      exact foldlM_evo (fun k => instBody_evo hrec) _ _ _ h

mutual
theorem item_evo {T : ModTable} {rec : SV → Str → Py SV} (hrec : ∀ n, Evolves (fun s => rec s n)) : ∀ (i : MItem), Evolves (MItem.scan T rec i)
  | .decl ds => by intro s s' h; simp only [MItem.scan] at h; exact foldlM_evo visitNode_evo ds s s' h
  | .assign _ _ => by intro s s' h; simp only [MItem.scan, ok_inj] at h; subst h; exact .refl s
  | .initial _ => by intro s s' h; simp only [MItem.scan, ok_inj] at h; subst h; exact .refl s
  | .always k _ b => by
    intro s s' h
    cases k with
    | always =>
      simp only [MItem.scan] at h
      obtain ⟨r, hr, h⟩ := bind_ok.mp h
      obtain ⟨f, _, h⟩ := bind_ok.mp h
      exact (label_evo hr).trans (inside_evo (by simp) (stmt_evo b) rfl h)
    | ff => simp only [MItem.scan] at h; exact stmt_evo b s s' h
    | comb => simp only [MItem.scan] at h; exact stmt_evo b s s' h
    | latch => simp only [MItem.scan] at h; exact stmt_evo b s s' h
  | .insts m ps is => by intro s s' h; simp only [MItem.scan] at h; exact foldlM_evo (inst_evo hrec) is s s' h
  | .func n r ds b => by
    intro s s' h
    simp only [MItem.scan] at h
    obtain ⟨f, _, h⟩ := bind_ok.mp h
    split at h
    · simp at h
    · obtain ⟨s1, h1, h⟩ := bind_ok.mp h
      obtain ⟨s2, h2, h⟩ := bind_ok.mp h
      obtain ⟨s3, h3, h⟩ := bind_ok.mp h
      rw [ok_inj] at h; subst h
      have e1 : Evo s s1 := modify_evo (fun f => by rfl) h1
      have e2 : Evo s1 s2 := (Evo.same (s := s1) (s' := { s1 with fdef := true }) rfl rfl).trans (foldlM_evo visitNode_evo _ _ _ h2)
      exact ((e1.trans e2).trans (stmt_evo b _ _ h3)).trans (.same rfl rfl)
  | .task n ds b => by
    intro s s' h
    simp only [MItem.scan] at h
    obtain ⟨f, _, h⟩ := bind_ok.mp h
    split at h
    · simp at h
    · obtain ⟨s1, h1, h⟩ := bind_ok.mp h
      obtain ⟨s2, h2, h⟩ := bind_ok.mp h
      obtain ⟨s3, h3, h⟩ := bind_ok.mp h
      rw [ok_inj] at h; subst h
      have e1 : Evo s s1 := modify_evo (fun f => by rfl) h1
      have e2 : Evo s1 s2 := (Evo.same (s := s1) (s' := { s1 with tdef := true }) rfl rfl).trans (foldlM_evo visitNode_evo _ _ _ h2)
      exact ((e1.trans e2).trans (stmt_evo b _ _ h3)).trans (.same rfl rfl)
  | .gen is => by
    intro s s' h
    simp only [MItem.scan] at h
    obtain ⟨r, hr, h⟩ := bind_ok.mp h
    exact (label_evo hr).trans (inside_evo (by simp) (items_evo hrec is) rfl h)
  | .gif c t => by
    intro s s' h
    simp only [MItem.scan] at h
    exact visitIf_evo (item_evo hrec t) (fun s s' h => by rw [ok_inj] at h; subst h; exact .refl s) s s' h
  | .gife c t f => by
    intro s s' h
    simp only [MItem.scan] at h
    exact visitIf_evo (item_evo hrec t) (item_evo hrec f) s s' h
  | .gfor _ _ _ _ _ b => by
    intro s s' h
    simp only [MItem.scan] at h
    exact visitFor_evo (item_evo hrec b) s s' h
  | .gblock n is => by
    intro s s' h
    simp only [MItem.scan] at h
    exact visitBlock_evo (items_evo hrec is) s s' h
theorem items_evo {T : ModTable} {rec : SV → Str → Py SV} (hrec : ∀ n, Evolves (fun s => rec s n)) : ∀ (is : List MItem), Evolves (MItem.scanList T rec is)
  | [] => by intro s s' h; simp only [MItem.scanList, ok_inj] at h; subst h; exact .refl s
  | i :: is => by
    intro s s' h
    simp only [MItem.scanList] at h
    obtain ⟨s1, h1, h⟩ := bind_ok.mp h
    exact (item_evo hrec i s s1 h1).trans (items_evo hrec is s1 s' h)
end

theorem module_evo {T : ModTable} : ∀ k n, Evolves (fun s => SV.visitModule T k s n) := by
  intro k
  induction k with
  | zero => intro n s s' h; simp [SV.visitModule] at h
  | succ k ih =>
    intro n s s' h
    simp only [SV.visitModule] at h
    obtain ⟨m, _, h⟩ := bind_ok.mp h
    obtain ⟨s1, h1, h⟩ := bind_ok.mp h
    obtain ⟨s2, h2, h⟩ := bind_ok.mp h
    exact ((foldlM_evo visitNode_evo _ _ _ h1).trans (foldlM_evo visitNode_evo _ _ _ h2)).trans (items_evo ih _ _ _ h)

/-- The frames of every design form a tree below the top module. -/
theorem signalPass_tree {ctx : OptCtx} {fuel loops depth : Nat} {ms : List ModuleDef} {top : Str} {s : SV}
    (h : signalPass ctx fuel loops depth ms top = .ok s) : ScopeTree s.frames ∧ s.frames.has [⟨top, .module, none⟩] = true := by
  unfold signalPass at h
  obtain ⟨T, _, h⟩ := bind_ok.mp h
  simp only at h
  obtain ⟨s1, h1, h⟩ := bind_ok.mp h
  have ht : s1.Tree ∧ s1.current = [⟨top, .module, none⟩] := by
    simp only [SV.stackInstance] at h1
    obtain ⟨s2, h2, h1⟩ := bind_ok.mp h1
    obtain ⟨sg, _, h1⟩ := bind_ok.mp h1
    obtain ⟨cs, _, h1⟩ := bind_ok.mp h1
    simp only [SV.addFrame, Dict.get?_nil, Dict.has, List.any_nil, Bool.false_eq_true, if_false, ok_inj] at h2
    have hcur : s1.current = s2.current := by
      unfold SV.modify at h1
      obtain ⟨f, _, h1⟩ := bind_ok.mp h1
      rw [ok_inj] at h1; rw [← h1]
    refine ⟨(modify_evo (fun f => by rfl) h1 ?_).1, by rw [hcur, ← h2]; rfl⟩
    rw [← h2]
    refine ⟨⟨by simp [Dict.set], ?_, ?_, ?_⟩, by simp [Dict.set, Dict.has]⟩
    · intro c f hf
      simp only [Dict.set, Dict.get?_cons, Dict.get?_nil, List.nil_append] at hf
      split at hf
      · rename_i e
        simp only [Option.some.injEq] at hf
        subst hf; subst e
        simp [Dict.set, childOf]
      · simp at hf
    · intro c l hh hc
      simp only [Dict.set, Dict.has, List.any_cons, List.any_nil, Bool.or_false, decide_eq_true_eq] at hh
      have := congrArg List.length hh
      simp only [List.nil_append, List.length_cons, List.length_nil, List.length_append] at this
      exact absurd (List.length_eq_zero_iff.mp (by omega)) hc
    · intro c l hh hm
      simp only [Dict.set, Dict.has, List.any_cons, List.any_nil, Bool.or_false, decide_eq_true_eq] at hh
      rw [← hh] at hm
      simp only [List.nil_append, List.mem_singleton] at hm
      rw [hm]; simp
  obtain ⟨t, k⟩ := module_evo depth top s1 s h ht.1
  refine ⟨t.tree, ?_⟩
  rw [← ht.2]
  exact k _ ht.1.cur

end Pyv
