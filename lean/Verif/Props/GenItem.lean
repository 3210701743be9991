import Verif.Props.GenDecl
/-
  C85: always blocks, conditional generates, loops.
-/
namespace Pyv

/-! ### Always blocks -/

/-- Only frames of an always block were added. -/
structure AlwaysOnly (s s' : SV) : Prop where
  vals : s'.vals = s.vals
  fdef : s'.fdef = s.fdef
  tdef : s'.tdef = s.tdef
  view : ∃ new, s'.view = s.view ++ new ∧ (∀ e ∈ new, e.2.isAlways = true) ∧ (new.map (·.1)).Nodup ∧
    ∀ e ∈ new, s.view.has e.1 = false

/-- The current frame belongs to an always block. -/
def SV.InAlways (s : SV) : Prop := ∃ f, s.view.get? s.current = some f ∧ f.isAlways = true

theorem AlwaysOnly.refl (s : SV) : AlwaysOnly s s := ⟨rfl, rfl, rfl, [], by simp, by simp, by simp, by simp⟩

theorem AlwaysOnly.trans {s s1 s2 : SV} (h1 : AlwaysOnly s s1) (h2 : AlwaysOnly s1 s2) : AlwaysOnly s s2 := by
  obtain ⟨n1, a1, a2, a3, a4⟩ := h1.view
  obtain ⟨n2, b1, b2, b3, b4⟩ := h2.view
  have b5 : ∀ e ∈ n2, s.view.has e.1 = false ∧ Dict.has n1 e.1 = false := by
    intro e he
    have := b4 e he
    rw [a1, Dict.has_append] at this
    simpa using this
  refine ⟨h2.vals.trans h1.vals, h2.fdef.trans h1.fdef, h2.tdef.trans h1.tdef, n1 ++ n2, by rw [b1, a1, List.append_assoc], ?_, ?_, ?_⟩
  · intro e he
    rcases List.mem_append.mp he with h | h
    · exact a2 e h
    · exact b2 e h
  · rw [List.map_append, List.nodup_append]
    refine ⟨a3, b3, ?_⟩
    intro a ha b hb e
    subst e
    obtain ⟨y, hy, e⟩ := List.mem_map.mp hb
    have := (b5 y hy).2
    rw [e, Dict.has_iff_key.mpr ha] at this
    simp at this
  · intro e he
    rcases List.mem_append.mp he with h | h
    · exact a4 e h
    · exact (b5 e h).1

theorem SV.InAlways.keep {s s' : SV} (h : s.InAlways) (hv : ∃ new, s'.view = s.view ++ new) (hc : s'.current = s.current) : s'.InAlways := by
  obtain ⟨f, hf, ha⟩ := h
  obtain ⟨new, hv⟩ := hv
  exact ⟨f, by rw [hc, hv, Dict.get?_append (Dict.has_of_get? hf), hf], ha⟩

theorem AlwaysOnly.more {s s' : SV} (h : AlwaysOnly s s') : ∃ new, s'.view = s.view ++ new := by
  obtain ⟨n, h, _⟩ := h.view; exact ⟨n, h⟩

theorem addFrame_always {s s1 : SV} {l f} (h : s.addFrame l f = .ok s1) (ha : f.isAlways = true) : AlwaysOnly s s1 ∧ s1.InAlways := by
  obtain ⟨hn, hv, hs⟩ := addFrame_ok h
  refine ⟨⟨by rw [hs], by rw [hs], by rw [hs], _, hv, ?_, by simp, ?_⟩, ⟨({ f with previous := s.current } : SFrame).core, ?_, ha⟩⟩
  · intro e he; simp only [List.mem_singleton] at he; subst he; exact ha
  · intro e he; simp only [List.mem_singleton] at he; subst he; exact hn
  · have : s1.current = s.current ++ [l] := by rw [hs]
    rw [this, hv, Dict.get?_append_right hn]
    simp [Dict.get?_cons]

/-- What a statement of an always block does. -/
def QuietBody (body : SV → Py SV) : Prop := ∀ s s', s.InAlways → body s = .ok s' → AlwaysOnly s s' ∧ s'.current = s.current

theorem inside_always {s s' : SV} {l f} {body : SV → Py SV} (hb : QuietBody body) (h : s.inside l f body = .ok s') (ha : f.isAlways = true) :
    AlwaysOnly s s' ∧ s'.current = s.current := by
  unfold SV.inside at h
  obtain ⟨s1, h1, h⟩ := bind_ok.mp h
  obtain ⟨s2, h2, h⟩ := bind_ok.mp h
  rw [ok_inj] at h; subst h
  obtain ⟨a, b⟩ := addFrame_always h1 ha
  have := (hb s1 s2 b h2).1
  have := a.trans this
  exact ⟨⟨this.vals, this.fdef, this.tdef, this.view⟩, rfl⟩

theorem label_same {s : SV} {n r} (h : s.label n = .ok r) : r.2 = { s with labels := r.2.labels } := by
  unfold SV.label at h
  obtain ⟨f, _, h⟩ := bind_ok.mp h
  rw [ok_inj] at h
  rw [← h]

theorem label_always {s : SV} {n r} (h : s.label n = .ok r) (hi : s.InAlways) : AlwaysOnly s r.2 ∧ r.2.InAlways ∧ r.2.current = s.current := by
  have e := label_same h
  have hv : r.2.view = s.view := by rw [e]; rfl
  have hc : r.2.current = s.current := by rw [e]
  refine ⟨⟨by rw [e], by rw [e], by rw [e], [], by simp [hv], by simp, by simp, by simp⟩, hi.keep ⟨[], by simp [hv]⟩ hc, hc⟩

theorem side_always {s s' : SV} {l c b} {body : SV → Py SV} (hb : QuietBody body) (hi : s.InAlways) (h : s.side l c b body = .ok s') :
    AlwaysOnly s s' ∧ s'.current = s.current := by
  unfold SV.side at h
  obtain ⟨f, hf, h⟩ := bind_ok.mp h
  refine inside_always hb h ?_
  obtain ⟨f', hf', ha⟩ := hi
  have := SV.view_frame hf' hf
  show f.isAlways = true
  rw [← ha, ← this]; rfl

theorem visitIf_always {s s' : SV} {c a b} {vt vf : SV → Py SV} (ht : QuietBody vt) (hf : QuietBody vf) (hi : s.InAlways)
    (h : SV.visitIf c a vt b vf s = .ok s') : AlwaysOnly s s' ∧ s'.current = s.current := by
  unfold SV.visitIf at h
  obtain ⟨f, hfr, h⟩ := bind_ok.mp h
  obtain ⟨f', hf', ha⟩ := id hi
  have e := SV.view_frame hf' hfr
  have ha' : f.isAlways = true := by rw [← ha, ← e]; rfl
  rw [if_neg (by rw [ha']; simp)] at h
  split at h
  · split at h
    · rw [ok_inj] at h; subst h; exact ⟨AlwaysOnly.refl s, rfl⟩
    · simp at h
  · obtain ⟨r, h1, h⟩ := bind_ok.mp h
    obtain ⟨q1, i1, c1⟩ := label_always h1 hi
    obtain ⟨s1, h2, h⟩ := bind_ok.mp h
    obtain ⟨q2, c2⟩ := side_always ht i1 h2
    split at h
    · rw [ok_inj] at h; subst h; exact ⟨q1.trans q2, c2.trans c1⟩
    · obtain ⟨q3, c3⟩ := side_always hf (i1.keep q2.more c2) h
      exact ⟨(q1.trans q2).trans q3, c3.trans (c2.trans c1)⟩

theorem visitBlock_always {s s' : SV} {n} {body : SV → Py SV} (hb : QuietBody body) (hi : s.InAlways)
    (h : SV.visitBlock n body s = .ok s') : AlwaysOnly s s' ∧ s'.current = s.current := by
  unfold SV.visitBlock at h
  obtain ⟨r, h1, h⟩ := bind_ok.mp h
  have : AlwaysOnly s r.2 ∧ r.2.InAlways ∧ r.2.current = s.current := by
    cases n with
    | some n => simp only [ok_inj] at h1; subst h1; exact ⟨AlwaysOnly.refl s, hi, rfl⟩
    | none => exact label_always h1 hi
  obtain ⟨q1, i1, c1⟩ := this
  obtain ⟨f, hf, h⟩ := bind_ok.mp h
  obtain ⟨f', hf', ha⟩ := id i1
  have e := SV.view_frame hf' hf
  obtain ⟨q2, c2⟩ := inside_always hb h (show f.isAlways = true by rw [← ha, ← e]; rfl)
  exact ⟨q1.trans q2, c2.trans c1⟩

mutual
theorem scan_always : ∀ (b : Stmt), b.loopless = true → QuietBody (Stmt.scan b)
  | .skip, _ => by intro s s' _ h; simp only [Stmt.scan, ok_inj] at h; subst h; exact ⟨AlwaysOnly.refl s, rfl⟩
  | .nb _ _, _ => by intro s s' _ h; simp only [Stmt.scan, ok_inj] at h; subst h; exact ⟨AlwaysOnly.refl s, rfl⟩
  | .ba _ _, _ => by intro s s' _ h; simp only [Stmt.scan, ok_inj] at h; subst h; exact ⟨AlwaysOnly.refl s, rfl⟩
  | .whiles _ _, _ => by intro s s' _ h; simp only [Stmt.scan, ok_inj] at h; subst h; exact ⟨AlwaysOnly.refl s, rfl⟩
  | .fors _ _ _ _ _ _, hl => by simp [Stmt.loopless] at hl
  | .ifs c t f, hl => by
    simp only [Stmt.loopless, Bool.and_eq_true] at hl
    intro s s' hi h
    simp only [Stmt.scan] at h
    exact visitIf_always (scan_always t hl.1) (scan_always f hl.2) hi h
  | .block n ss, hl => by
    simp only [Stmt.loopless] at hl
    intro s s' hi h
    simp only [Stmt.scan] at h
    exact visitBlock_always (scanList_always ss hl) hi h
  | .cases k comp conds bodies, hl => by
    simp only [Stmt.loopless] at hl
    intro s s' hi h
    have key : ∀ {s'}, (do let s1 ← Stmt.scanCases comp conds bodies s; .ok { s1 with current := s.current } : Py SV) = .ok s' →
        AlwaysOnly s s' ∧ s'.current = s.current := by
      intro s' h
      obtain ⟨s1, h1, h⟩ := bind_ok.mp h
      rw [ok_inj] at h; subst h
      have := scanCases_always comp conds bodies hl _ _ hi h1
      exact ⟨⟨this.vals, this.fdef, this.tdef, this.view⟩, rfl⟩
    cases k <;> simp only [Stmt.scan] at h
    all_goals first
      | exact key h
      | exact scanList_always bodies hl s s' hi h
theorem scanList_always : ∀ (bs : List Stmt), Stmt.looplessList bs = true → QuietBody (Stmt.scanList bs)
  | [], _ => by intro s s' _ h; simp only [Stmt.scanList, ok_inj] at h; subst h; exact ⟨AlwaysOnly.refl s, rfl⟩
  | b :: bs, hl => by
    simp only [Stmt.looplessList, Bool.and_eq_true] at hl
    intro s s' hi h
    simp only [Stmt.scanList] at h
    obtain ⟨s1, h1, h⟩ := bind_ok.mp h
    obtain ⟨q1, c1⟩ := scan_always b hl.1 s s1 hi h1
    obtain ⟨q2, c2⟩ := scanList_always bs hl.2 s1 s' (hi.keep q1.more c1) h
    exact ⟨q1.trans q2, c2.trans c1⟩
theorem scanCases_always (comp : Ex) : ∀ (cs : List (Option (List Ex))) (bs : List Stmt), Stmt.looplessList bs = true → ∀ (s s' : SV),
    s.InAlways → Stmt.scanCases comp cs bs s = .ok s' → AlwaysOnly s s'
  | c :: cs, b :: bs, hl => by
    simp only [Stmt.looplessList, Bool.and_eq_true] at hl
    intro s s' hi h
    simp only [Stmt.scanCases] at h
    obtain ⟨e, _, h⟩ := bind_ok.mp h
    obtain ⟨r, h1, h⟩ := bind_ok.mp h
    obtain ⟨q1, i1, c1⟩ := label_always h1 hi
    obtain ⟨s1, h2, h⟩ := bind_ok.mp h
    obtain ⟨q2, c2⟩ := side_always (scan_always b hl.1) i1 h2
    have i2 := i1.keep q2.more c2
    split at h
    · rw [ok_inj] at h; subst h; exact q1.trans q2
    · obtain ⟨f, hf, h⟩ := bind_ok.mp h
      obtain ⟨s2, h3, h⟩ := bind_ok.mp h
      obtain ⟨f', hf', ha⟩ := id i2
      have e := SV.view_frame hf' hf
      obtain ⟨q3, i3⟩ := addFrame_always h3 (show f.isAlways = true by rw [← ha, ← e]; rfl)
      exact ((q1.trans q2).trans q3).trans (scanCases_always comp cs bs hl.2 _ _ i3 h)
  | [], bs, _ => by
    intro s s' _ h
    cases bs <;> (simp only [Stmt.scanCases, ok_inj] at h; subst h; exact AlwaysOnly.refl s)
  | _ :: _, [], _ => by intro s s' _ h; simp only [Stmt.scanCases, ok_inj] at h; subst h; exact AlwaysOnly.refl s
end

theorem EnvAt.has {b V K c σ} (h : EnvAt b V K c σ) : ∀ x, InEnv c σ.length x → V.has x = true := by
  induction h with
  | @top c f d h1 _ _ =>
    intro x hx
    have : x = c := by
      refine hx.1.eq_of_length ?_
      have := hx.1.length_le
      have := hx.2
      simp at this; omega
    rw [this]; exact Dict.has_of_get? h1
  | @up c l f d σ h1 _ _ _ _ ih =>
    intro x hx
    by_cases e : x = c ++ [l]
    · rw [e]; exact Dict.has_of_get? h1
    · apply ih
      have := hx.2
      refine ⟨?_, by simp at this; omega⟩
      rcases List.prefix_concat_iff.mp hx.1 with h | h
      · exact absurd h e
      · exact h

theorem AlwaysOnly.grew {s s' : SV} {g σ} (hr : s.Ready g σ) (h : AlwaysOnly s s') (hc : s'.current = s.current) : Grew s s' σ σ [] [] := by
  obtain ⟨f, hf, _, _⟩ := hr.frame
  obtain ⟨new, hv, ha, hnd, hk⟩ := h.view
  refine ⟨hc, h.fdef, h.tdef, rfl, fun c n _ _ => by rw [h.vals], ?_, ?_, f, f, new, hf, rfl, by rw [hv, Dict.set_same hf], by simp, by simp, ?_,
    by simp, hnd, hk⟩
  · rw [h.vals]
    refine hr.env.congr ?_ (fun _ _ _ => rfl)
    intro x hx
    rw [hv, Dict.get?_append (hr.env.has x hx)]
  · intro c n hcn
    rw [hv, Dict.has_append] at hcn
    simp only [Bool.or_eq_false_iff] at hcn
    rw [h.vals]
    exact hr.fresh c n hcn.1
  · have : new.filter (fun e => !e.2.isAlways) = [] := by
      rw [List.filter_eq_nil_iff]
      intro e he
      rw [ha e he]; simp
    rw [this]
    exact .nil

theorem label_grew {s : SV} {g σ n r} (hr : s.Ready g σ) (h : s.label n = .ok r) : Grew s r.2 σ σ [] [] := by
  have e := label_same h
  exact Grew.quiet hr (by rw [e]) (by rw [e]; rfl) (by rw [e]) (by rw [e]) (by rw [e])

theorem Grew.nil_trans {s s1 s2 : SV} {σ σ1 σ2 ds sc} (h1 : Grew s s1 σ σ1 [] []) (h2 : Grew s1 s2 σ1 σ2 ds sc) : Grew s s2 σ σ2 ds sc := by
  simpa using h1.trans h2

theorem Ready.child {s : SV} {g σ f} (hr : s.Ready g σ) (hf : s.frame s.current = .ok f) : f.isGenerate = g ∧ f.isAlways = false := by
  obtain ⟨f', hf', hg, ha⟩ := hr.frame
  have := SV.view_frame hf' hf
  subst this
  exact ⟨hg, ha⟩

/-- The body of a scope in the specification and in the pass. -/
def BodyGrows (body : SV → Py SV) (g : Bool) (σ σ' : GEnv) (d : Dict Str Int) (ds : List DItem) (sc : List GScope) : Prop :=
  ∀ s1 s2, s1.Ready g ([] :: σ) → body s1 = .ok s2 → Grew s1 s2 ([] :: σ) (d :: σ') ds sc

theorem side_grew {s s' : SV} {g σ σ' l c b d ds sc first} {body : SV → Py SV} (hr : s.Ready g σ) (h : s.side l c b body = .ok s')
    (hl : LabelFor ⟨l, .if_, none⟩ (.arm first)) (hb : BodyGrows body g σ σ' d ds sc) :
    Grew s s' σ σ' [] (scopeTree (.arm first) ds d sc) := by
  unfold SV.side at h
  obtain ⟨f, hf, h⟩ := bind_ok.mp h
  obtain ⟨hg, ha⟩ := Ready.child hr hf
  exact Grew.inside hr h rfl hg ha rfl hl hb

theorem visitBlock_grew {s s' : SV} {g σ σ' n d ds sc} {body : SV → Py SV} (hr : s.Ready g σ) (h : SV.visitBlock n body s = .ok s')
    (hb : BodyGrows body g σ σ' d ds sc) : Grew s s' σ σ' [] (scopeTree (.block n) ds d sc) := by
  unfold SV.visitBlock at h
  obtain ⟨r, h1, h2⟩ := bind_ok.mp h
  obtain ⟨f, hf, h3⟩ := bind_ok.mp h2
  clear h h2
  cases n with
  | some n =>
    simp only [ok_inj] at h1; subst h1
    obtain ⟨hg, ha⟩ := Ready.child hr hf
    exact Grew.inside hr h3 rfl hg ha rfl .named hb
  | none =>
    have G := label_grew hr h1
    have hr1 := G.ready hr
    obtain ⟨hg, ha⟩ := Ready.child hr1 hf
    exact G.nil_trans (Grew.inside hr1 h3 rfl hg ha rfl .unnamed hb)

/-- The condition of a conditional generate. -/
theorem visitIf_cond {s s' : SV} {σ c v a b} {vt vf : SV → Py SV} (hr : s.Ready true σ) (hc : ConstVal σ c v)
    (h : SV.visitIf c a vt b vf s = .ok s') :
    (if v > 0 then (if a then Except.ok s else do
        let r ← s.label "if".toList
        r.2.side r.1 c false vt)
      else do
        let r ← s.label "if".toList
        if b then .ok r.2 else r.2.side (toELSE r.1) c true vf : Py SV) = .ok s' := by
  unfold SV.visitIf at h
  obtain ⟨f, hf, h⟩ := bind_ok.mp h
  obtain ⟨hg, ha⟩ := Ready.child hr hf
  rw [if_pos (by rw [hg, ha, hr.fdef, hr.tdef]; rfl)] at h
  obtain ⟨x, hx, h⟩ := bind_ok.mp h
  obtain ⟨w, rfl⟩ := SV.eval_val hr.env.weaken hc hx
  rw [if_neg (by simp [DF.isEv])] at h
  obtain ⟨n, hn, h⟩ := bind_ok.mp h
  have hn' : (Except.ok v : Py Int) = .ok n := hn
  rw [ok_inj] at hn'; subst hn'
  exact h

theorem put_len {σ : GEnv} {n v σ'} (h : GEnv.put σ n v = some σ') : σ'.length = σ.length := by
  induction σ generalizing σ' with
  | nil => simp [GEnv.put] at h
  | cons d σ ih =>
    simp only [GEnv.put] at h
    split at h
    · simp only [Option.some.injEq] at h; subst h; rfl
    · simp only [Option.map_eq_some_iff] at h
      obtain ⟨σ1, h1, rfl⟩ := h
      simp [ih h1]

theorem assignIter_grew {s s' : SV} {g σ i e a σ'} (hr : s.Ready g σ) (he : ConstVal σ e a) (hp : GEnv.put σ i a = some σ')
    (h : s.assignIter (.ident [] i) e = .ok s') : Grew s s' σ σ' [] [] := by
  simp only [SV.assignIter] at h
  obtain ⟨c, hc, h⟩ := bind_ok.mp h
  obtain ⟨x, hx, h⟩ := bind_ok.mp h
  obtain ⟨w, rfl⟩ := SV.eval_val hr.env.weaken he hx
  rw [ok_inj] at h
  unfold SV.searchConst at hc
  obtain ⟨r, hr1, hc⟩ := bind_ok.mp hc
  obtain ⟨y, rfl, hin, hE⟩ := searchUp_put hr.env hp hr1
  simp only [ok_inj] at hc
  subst hc
  have hk : s'.vals = Dict.set s.vals (y ++ [sigName i]) (.evi a (some w)) := by rw [← h]; rfl
  have hv : s'.view = s.view := by rw [← h]; rfl
  obtain ⟨f, hf, _, _⟩ := hr.frame
  have hother : ∀ c n, c ≠ y → s'.vals.get? (c ++ [sigName n]) = s.vals.get? (c ++ [sigName n]) := by
    intro c n hc
    rw [hk, Dict.get?_set, if_neg]
    intro e
    exact hc (List.append_inj_left' e rfl).symm
  refine ⟨by rw [← h]; rfl, by rw [← h]; rfl, by rw [← h]; rfl, put_len hp, ?_, ?_, ?_, f, f, [], hf, rfl, ?_, by simp, by simp, .nil, by simp,
    by simp, by simp⟩
  · intro c n _ hni
    exact hother c n (by rintro rfl; exact hni hin)
  · rw [hv, hk]; exact hE w
  · intro c n hcn
    rw [hv] at hcn
    rw [hother c n (by rintro rfl; rw [hr.env.has _ hin] at hcn; simp at hcn)]
    exact hr.fresh c n hcn
  · rw [hv, Dict.set_same hf]; simp

end Pyv
