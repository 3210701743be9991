import Verif.Props.ReorderTerms
import Verif.Props.ElementTree
/-
  C53: the tree of a signal mentions only signals of its assignments.
-/
namespace Pyv

/-- The simplifier and the reordering introduce no signals (true of the modelled ones: `noNewTerms_real`). -/
structure MergeEnv.NoNewTerms (S : MergeEnv) : Prop where
  opt : ∀ t r, S.opt t = .ok r → ∀ x ∈ r.terms, x ∈ t.terms
  reo : ∀ t r, S.reo t = .ok r → ∀ x ∈ r.terms, x ∈ t.terms

theorem noNewTerms_real (ctx : OptCtx) (k level : Nat) (b rb : Dict ScopeChain (List Bind)) :
    (mergeEnvOf ctx k level b rb).NoNewTerms :=
  ⟨fun t r h => C10_optimize_terms ctx k level t r h, fun t r h => C52_no_new_signals k t r h⟩

variable {S : MergeEnv} {P : ScopeChain → Prop}

/-- All signals of the tree satisfy `P`. -/
def DF.TermsIn (P : ScopeChain → Prop) (t : DF) : Prop := ∀ x ∈ t.terms, P x

theorem NoNewTerms.optIn (hS : S.NoNewTerms) {t r : DF} (ht : t.TermsIn P) (h : S.opt t = .ok r) : r.TermsIn P :=
  fun x hx => ht x (hS.opt t r h x hx)

theorem splitBind_in (hS : S.NoNewTerms) {b : Bind} {p : Int} {r : Bind × Option Bind} (hb : b.tree.TermsIn P)
    (h : S.splitBind b p = .ok r) : r.1.tree.TermsIn P ∧ ∀ y ∈ r.2, y.tree.TermsIn P := by
  unfold MergeEnv.splitBind at h
  simp only [bind_ok] at h
  obtain ⟨m, hm, l, hl, q, hq, ⟨m1, l1⟩, h1, ⟨m2, l2⟩, h2, lv, hlv, h⟩ := h
  split at h
  · simp only [bind_ok] at h
    obtain ⟨mv, hmv, h⟩ := h
    split at h
    · simp only [bind_ok, ok_inj] at h
      obtain ⟨r1, hr1, r2, hr2, r3, hr3, r4, hr4, rfl⟩ := h
      have e : ∀ a b : DF, (∀ c ∈ [a, b], c.terms = []) → (DF.psel ‹Bind›.tree a b).TermsIn P := by
        intro a b' hab x hx
        simp only [DF.terms, List.mem_append, hab a (by simp), hab b' (by simp), List.not_mem_nil, or_false] at hx
        exact hb x hx
      refine ⟨fun x hx => ?_, fun y hy x hx => ?_⟩
      · exact e _ _ (by simp [DF.terms]) x (hS.reo _ _ hr2 x (hS.opt _ _ hr4 x hx))
      · simp only [Option.mem_def, Option.some.injEq] at hy
        subst hy
        exact e _ _ (by simp [DF.terms]) x (hS.reo _ _ hr1 x (hS.opt _ _ hr3 x hx))
    · rw [ok_inj] at h; subst h; exact ⟨hb, by simp⟩
  · rw [ok_inj] at h; subst h; exact ⟨hb, by simp⟩

theorem splitBindPositions_in (hS : S.NoNewTerms) {ps : List Int} {b : Bind} {rs : List Bind} (hb : b.tree.TermsIn P)
    (h : S.splitBindPositions b ps = .ok rs) : ∀ r ∈ rs, r.tree.TermsIn P := by
  induction ps generalizing b rs with
  | nil => simp only [MergeEnv.splitBindPositions, ok_inj] at h; subst h; simpa using hb
  | cons p ps ih =>
    simp only [MergeEnv.splitBindPositions, bind_ok, ok_inj] at h
    obtain ⟨⟨l, r⟩, h1, rest, h2, rfl⟩ := h
    have := splitBind_in hS hb h1
    intro x hx
    rcases List.mem_append.mp hx with hx | hx
    · exact this.2 x (by simpa using hx)
    · exact ih this.1 h2 x hx

theorem splitBindlist_in (hS : S.NoNewTerms) {ps : List Int} {bs rs : List Bind} (hb : ∀ b ∈ bs, b.tree.TermsIn P)
    (h : S.splitBindlist ps bs = .ok rs) : ∀ r ∈ rs, r.tree.TermsIn P := by
  induction bs generalizing rs with
  | nil => simp only [MergeEnv.splitBindlist, ok_inj] at h; subst h; simp
  | cons b bs ih =>
    simp only [MergeEnv.splitBindlist, bind_ok, ok_inj] at h
    obtain ⟨x, hx, y, hy, rfl⟩ := h
    intro r hr
    rcases List.mem_append.mp hr with hr | hr
    · exact splitBindPositions_in hS (hb b (by simp)) hx r hr
    · exact ih (fun b' hb' => hb b' (by simp [hb'])) hy r hr

theorem sortBinds_mem {bs s : List Bind} (h : S.sortBinds bs = .ok s) : ∀ b ∈ s, b ∈ bs := by
  unfold MergeEnv.sortBinds at h
  simp only [bind_ok, ok_inj] at h
  obtain ⟨ks, _, rfl⟩ := h
  intro b hb
  obtain ⟨p, hp, rfl⟩ := List.mem_map.mp hb
  exact (List.of_mem_zip ((sortOn_perm _ _).mem_iff.mp hp)).2

theorem appendTail_in {a t : DF} (ha : a.TermsIn P) (ht : t.TermsIn P) : (appendTail a t).TermsIn P := by
  induction t using DF.ind with
  | none => exact ha
  | branch c t f _ h2 h3 =>
    simp only [DF.TermsIn, DF.terms, List.mem_append] at ht
    intro x hx
    simp only [appendTail, DF.terms, List.mem_append] at hx
    rcases hx with (hx | hx) | hx
    · exact ht x (by tauto)
    · exact h2 (fun y hy => ht y (by tauto)) x hx
    · exact h3 (fun y hy => ht y (by tauto)) x hx
  | _ => exact ht

theorem branch_in {c t f : DF} : (DF.branch c t f).TermsIn P ↔ c.TermsIn P ∧ t.TermsIn P ∧ f.TermsIn P := by
  simp only [DF.TermsIn, DF.terms, List.mem_append]
  constructor
  · intro h; exact ⟨fun x hx => h x (by tauto), fun x hx => h x (by tauto), fun x hx => h x (by tauto)⟩
  · rintro ⟨h1, h2, h3⟩ x ((hx | hx) | hx)
    exacts [h1 x hx, h2 x hx, h3 x hx]

theorem mergeTree_in (hS : S.NoNewTerms) {a b r : DF} (ha : a.TermsIn P) (hb : b.TermsIn P)
    (h : mergeTree S.opt a b = .ok r) : r.TermsIn P := by
  induction a using DF.ind generalizing b r with
  | branch c t f _ h2 h3 =>
    have ha' := ha
    rw [branch_in] at ha
    cases b with
    | branch c2 t2 f2 =>
      have hb' := hb
      rw [branch_in] at hb
      simp only [mergeTree, bind_ok] at h
      obtain ⟨x, hx, y, hy, h⟩ := h
      split at h
      · simp only [bind_ok, ok_inj] at h
        obtain ⟨u, hu, v, hv, rfl⟩ := h
        exact branch_in.mpr ⟨NoNewTerms.optIn hS ha.1 hx, h2 ha.2.1 hb.2.1 hu, h3 ha.2.2 hb.2.2 hv⟩
      · rw [ok_inj] at h; subst h
        exact branch_in.mpr ⟨NoNewTerms.optIn hS hb.1 hy, appendTail_in ha' hb.2.1, appendTail_in ha' hb.2.2⟩
    | none => simp only [mergeTree, ok_inj] at h; subst h; exact ha'
    | _ =>
      simp only [mergeTree, bind_ok, ok_inj] at h
      obtain ⟨x, hx, rfl⟩ := h
      exact branch_in.mpr ⟨NoNewTerms.optIn hS ha.1 hx, appendTail_in hb ha.2.1, appendTail_in hb ha.2.2⟩
  | none => cases b <;> simp only [mergeTree, ok_inj] at h <;> subst h <;> first | exact hb | exact ha
  | _ =>
    cases b with
    | branch c2 t2 f2 =>
      rw [branch_in] at hb
      simp only [mergeTree, bind_ok, ok_inj] at h
      obtain ⟨x, hx, rfl⟩ := h
      exact branch_in.mpr ⟨NoNewTerms.optIn hS hb.1 hx, appendTail_in ha hb.2.1, appendTail_in ha hb.2.2⟩
    | none => simp only [mergeTree, ok_inj] at h; subst h; exact ha
    | _ => simp only [mergeTree, ok_inj] at h; subst h; exact hb

theorem mergeLoop_in (hS : S.NoNewTerms) {bs acc rs : List Bind} {last : Option Bind} (hb : ∀ b ∈ bs, b.tree.TermsIn P)
    (ha : ∀ b ∈ acc, b.tree.TermsIn P) (hl : ∀ b ∈ last, b.tree.TermsIn P) (h : S.mergeLoop acc last bs = .ok rs) :
    ∀ r ∈ rs, r.tree.TermsIn P := by
  induction bs generalizing acc last with
  | nil =>
    simp only [MergeEnv.mergeLoop, ok_inj] at h
    subst h
    intro r hr
    rcases List.mem_append.mp hr with hr | hr
    · exact ha r hr
    · exact hl r (by simpa using hr)
  | cons b bs ih =>
    have hb' : ∀ b ∈ bs, b.tree.TermsIn P := fun x hx => hb x (by simp [hx])
    cases last with
    | none =>
      simp only [MergeEnv.mergeLoop] at h
      exact ih hb' ha (by simpa using hb b (by simp)) h
    | some l =>
      simp only [MergeEnv.mergeLoop, bind_ok] at h
      obtain ⟨same, _, h⟩ := h
      split at h
      · simp only [bind_ok] at h
        obtain ⟨t, ht, t', ht', h⟩ := h
        refine ih hb' ha ?_ h
        have : t.TermsIn P := mergeTree_in hS (hl l (by simp)) (hb b (by simp)) ht
        simpa using NoNewTerms.optIn hS this ht'
      · refine ih hb' ?_ (by simpa using hb b (by simp)) h
        intro x hx
        rcases List.mem_append.mp hx with hx | hx
        · exact ha x hx
        · simp at hx; rw [hx]; exact hl l (by simp)

theorem optimizedBindlist_in (hS : S.NoNewTerms) {bs rs : List Bind} (hb : ∀ b ∈ bs, b.tree.TermsIn P)
    (h : S.optimizedBindlist bs = .ok rs) : ∀ r ∈ rs, r.tree.TermsIn P := by
  unfold MergeEnv.optimizedBindlist at h
  split at h
  · rw [ok_inj] at h; subst h; simp
  · simp only [bind_ok] at h
    obtain ⟨ns, hns, h⟩ := h
    have hn : ∀ b ∈ ns, b.tree.TermsIn P := by
      rw [mapM_ok] at hns
      intro x hx
      obtain ⟨y, hy, h1⟩ := forall₂_mem_right hns x hx
      unfold MergeEnv.optBind at h1
      simp only [bind_ok, ok_inj] at h1
      obtain ⟨t, ht, _, _, _, _, _, _, rfl⟩ := h1
      exact NoNewTerms.optIn hS (hb _ hy) ht
    split at h
    · rw [ok_inj] at h; subst h; exact hn
    · simp only [bind_ok] at h
      obtain ⟨ps, _, ss, hss, h⟩ := h
      have hs := splitBindlist_in hS hn hss
      unfold MergeEnv.mergeBindlist at h
      simp only [bind_ok] at h
      obtain ⟨so, hso, h⟩ := h
      exact mergeLoop_in hS (fun b hb => hs b (sortBinds_mem hso b hb)) (by simp) (by simp) h

theorem mergedLoop_in {bs : List Bind} {a b : Int} {out r : List DF} (hb : ∀ b ∈ bs, b.tree.TermsIn P)
    (ho : ∀ t ∈ out, t.TermsIn P) (h : mergedLoop bs a b out = .ok r) : ∀ t ∈ r, t.TermsIn P := by
  induction bs generalizing a b out with
  | nil => simp only [mergedLoop, ok_inj] at h; subst h; exact ho
  | cons x bs ih =>
    simp only [mergedLoop, bind_ok] at h
    obtain ⟨l, hl, p, hp, h⟩ := h
    have hb' : ∀ b ∈ bs, b.tree.TermsIn P := fun y hy => hb y (by simp [hy])
    split at h
    · exact ih hb' ho h
    · simp only [bind_ok] at h
      obtain ⟨m, hm, h⟩ := h
      refine ih hb' ?_ h
      intro t ht
      simp only [List.mem_append, List.mem_singleton] at ht
      rcases ht with (ht | ht) | ht
      · exact ho t ht
      · split at ht
        · simp at ht; subst ht; intro y hy; simp [DF.terms] at hy
        · simp at ht
      · subst ht; exact hb x (by simp)

theorem mergedTree_in {bs : List Bind} {t : DF} (hb : ∀ b ∈ bs, b.tree.TermsIn P) (h : S.mergedTree bs = .ok t) :
    t.TermsIn P := by
  unfold MergeEnv.mergedTree at h
  simp only [bind_ok, ok_inj] at h
  obtain ⟨so, hso, out, hout, rfl⟩ := h
  have := mergedLoop_in (fun b h => hb b (sortBinds_mem hso b h)) (by simp) hout
  intro x hx
  simp only [DF.terms, DF.mem_termsList, List.mem_reverse] at hx
  obtain ⟨n, hn, hx⟩ := hx
  exact this n hn x hx

theorem discrete_in {bs : List Bind} {d : Dict (Option PyVal) (List Bind)} (hb : ∀ b ∈ bs, b.tree.TermsIn P)
    (hd : ∀ k xs, d.get? k = some xs → ∀ b ∈ xs, b.tree.TermsIn P) :
    ∀ k xs, (discrete bs d).get? k = some xs → ∀ b ∈ xs, b.tree.TermsIn P := by
  induction bs generalizing d with
  | nil => exact hd
  | cons x bs ih =>
    simp only [discrete]
    refine ih (fun b h => hb b (by simp [h])) ?_
    intro k xs hk
    suffices H : ∀ key : Option PyVal, Dict.get? (Dict.set d key ((d.get? key).getD [] ++ [x])) k = some xs →
        ∀ b ∈ xs, b.tree.TermsIn P from H _ hk
    clear hk
    intro key hk
    rw [Dict.get?_set] at hk
    split at hk
    · rw [Option.some.injEq] at hk
      subst hk
      intro b hb'
      rcases List.mem_append.mp hb' with h | h
      · cases hg : Dict.get? d key with
        | none => rw [hg] at h; simp at h
        | some ys => rw [hg] at h; exact hd _ _ hg b (by simpa using h)
      · simp at h; rw [h]; exact hb x (by simp)
    · exact hd k xs hk

theorem elementTree_in {d : Dict (Option PyVal) (List Bind)} {v : PyVal} {t : DF}
    (hd : ∀ k xs, d.get? k = some xs → ∀ b ∈ xs, b.tree.TermsIn P) (h : S.elementTree d v = .ok t) : t.TermsIn P := by
  unfold MergeEnv.elementTree at h
  split at h
  · exact absurd h (by simp)
  · rename_i b e
    rw [ok_inj] at h; subst h; exact hd _ _ e b (by simp)
  · rename_i bs _ e
    exact mergedTree_in (hd _ _ ‹_›) h

theorem elementChain_in {d : Dict (Option PyVal) (List Bind)} {p : DF} {cs : List Int} {r t : DF}
    (hd : ∀ k xs, d.get? k = some xs → ∀ b ∈ xs, b.tree.TermsIn P) (hp : p.TermsIn P) (hr : r.TermsIn P)
    (h : S.elementChain d p cs r = .ok t) : t.TermsIn P := by
  induction cs generalizing r with
  | nil => simp only [MergeEnv.elementChain, ok_inj] at h; subst h; exact hr
  | cons c cs ih =>
    simp only [MergeEnv.elementChain, bind_ok] at h
    obtain ⟨e, he, o, ho, h⟩ := h
    refine ih (branch_in.mpr ⟨?_, elementTree_in hd he, hr⟩) h
    obtain ⟨rfl, -⟩ := DF.mkOp_ok ho
    intro x hx
    simp only [DF.terms, DF.termsList, List.append_nil, List.nil_append] at hx
    exact hp x hx

/-- SPECIFICATION: signal `a` is assigned an expression that mentions `b`. -/
def MergeEnv.Dep (S : MergeEnv) (a b : ScopeChain) : Prop :=
  ∃ bs, S.rbinds.get? a = some bs ∧ ∃ x ∈ bs, b ∈ x.tree.terms

/-- SPECIFICATION: `n` is declared as an array. -/
def MergeEnv.IsArray (S : MergeEnv) (n : ScopeChain) : Prop := ∃ t, S.terms.get? n = some t ∧ t.dims.isSome = true

/-- **C53**: every signal of the tree returned by `getTree(n, index)` is mentioned by an assignment to `n`, or `n` is
an array and it is `n` itself or a signal of the index. -/
theorem C53_tree_signals (S : MergeEnv) (hS : S.NoNewTerms) (n : ScopeChain) (p t : DF) (h : S.getTree n p = .ok t)
    (x : ScopeChain) (hx : x ∈ t.terms) : S.Dep n x ∨ S.IsArray n ∧ (x = n ∨ x ∈ p.terms) := by
  have hb : ∀ b ∈ (S.rbinds.get? n).getD [], b.tree.TermsIn (S.Dep n) := by
    intro b hb y hy
    cases hg : S.rbinds.get? n with
    | none => rw [hg] at hb; simp at hb
    | some bs => rw [hg] at hb; exact ⟨bs, hg, b, by simpa using hb, hy⟩
  unfold MergeEnv.getTree at h
  simp only [bind_ok] at h
  obtain ⟨bs, hbs, h⟩ := h
  have hin := optimizedBindlist_in hS hb hbs
  split at h
  · rw [ok_inj] at h; subst h; simp [DF.terms] at hx
  simp only [bind_ok] at h
  obtain ⟨dims, hd, h⟩ := h
  split at h
  · have harr : S.IsArray n := by
      unfold MergeEnv.hasDims at hd
      split at hd
      · exact absurd hd (by simp)
      · rename_i tm e
        rw [ok_inj] at hd
        exact ⟨tm, e, by simp_all⟩
    have hdi := discrete_in (d := []) hin (by simp [Dict.get?])
    split at h
    · rw [ok_inj] at h; subst h
      simp only [DF.terms, List.mem_singleton] at hx
      exact Or.inr ⟨harr, Or.inl hx⟩
    · split at h
      · exact Or.inl (elementTree_in hdi h x hx)
      · simp only [bind_ok] at h
        obtain ⟨ks, _, h⟩ := h
        have := elementChain_in (P := fun y => S.Dep n y ∨ S.IsArray n ∧ (y = n ∨ y ∈ p.terms))
          (fun k xs hk b hb y hy => Or.inl (hdi k xs hk b hb y hy)) (fun y hy => Or.inr ⟨harr, Or.inr hy⟩)
          (fun y hy => by simp [DF.terms] at hy) h
        exact this x hx
  · split at h
    · rw [ok_inj] at h; subst h
      exact Or.inl (hin _ (by simp) x hx)
    · simp only [bind_ok] at h
      obtain ⟨t', ht', h⟩ := h
      exact Or.inl (NoNewTerms.optIn hS (mergedTree_in hin ht') h x hx)

end Pyv
