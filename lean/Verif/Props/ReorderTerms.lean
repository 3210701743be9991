import Verif.Props.ReorderTotal
import Verif.Props.OptTermsProps
/-
  C52: reordering introduces no signals, and loses none of a tree without missing sides.
-/
namespace Pyv

mutual
/-- SPECIFICATION: no node of the tree is missing. -/
def DF.Full : DF → Prop
  | .none => False
  | .op _ ns => DF.FullL ns
  | .psel v m l => v.Full ∧ m.Full ∧ l.Full
  | .ptr v p => v.Full ∧ p.Full
  | .concat ns => DF.FullL ns
  | .branch c t f => c.Full ∧ t.Full ∧ f.Full
  | .delay n => n.Full
  | .sys _ ns => DF.FullL ns
  | _ => True
/-- No node of the trees is missing. -/
def DF.FullL : List DF → Prop
  | [] => True
  | n :: ns => n.Full ∧ DF.FullL ns
end

theorem DF.fullL_iff {ns : List DF} : DF.FullL ns ↔ ∀ n ∈ ns, n.Full := by
  induction ns with
  | nil => simp [DF.FullL]
  | cons n ns ih => simp [DF.FullL, ih]

theorem insertBranch_terms (c t f : DF) (x : ScopeChain) : x ∈ (insertBranch c t f).terms ↔ x ∈ (DF.branch c t f).terms := by
  induction c using DF.ind with
  | branch a y z _ h2 h3 =>
    simp only [insertBranch, DF.terms, List.mem_append] at *
    rw [h2, h3]; tauto
  | _ => simp [insertBranch]

theorem insertBranch_full {c t f : DF} (hc : c.Full) (ht : t.Full) (hf : f.Full) : (insertBranch c t f).Full := by
  induction c using DF.ind with
  | branch a y z _ h2 h3 => simp only [DF.Full] at hc; simp only [insertBranch, DF.Full]; exact ⟨hc.1, h2 hc.2.1, h3 hc.2.2⟩
  | _ => simp only [insertBranch, DF.Full]; exact ⟨hc, ht, hf⟩

theorem hoistNode_sub {k : DF → Py DF} {E : ScopeChain → Prop} (hk : ∀ n r, k n = .ok r → ∀ x ∈ r.terms, x ∈ n.terms ∨ E x)
    {n r : DF} (h : hoistNode k n = .ok r) : ∀ x ∈ r.terms, x ∈ n.terms ∨ E x := by
  induction n using DF.ind generalizing r with
  | branch c t f _ h2 h3 =>
    simp only [hoistNode, bind_ok, ok_inj] at h
    obtain ⟨a, ha, b, hb, rfl⟩ := h
    intro x hx
    simp only [DF.terms, List.mem_append] at hx ⊢
    rcases hx with (hx | hx) | hx
    · tauto
    · have := h2 ha x hx; tauto
    · have := h3 hb x hx; tauto
  | _ => exact hk _ _ h

theorem hoistNode_sup {k : DF → Py DF} {E : ScopeChain → Prop}
    (hk : ∀ n r, k n = .ok r → n.Full → r.Full ∧ ∀ x, x ∈ n.terms ∨ E x → x ∈ r.terms)
    {n r : DF} (hn : n.Full) (h : hoistNode k n = .ok r) : r.Full ∧ ∀ x, x ∈ n.terms ∨ E x → x ∈ r.terms := by
  induction n using DF.ind generalizing r with
  | branch c t f _ h2 h3 =>
    simp only [hoistNode, bind_ok, ok_inj] at h
    obtain ⟨a, ha, b, hb, rfl⟩ := h
    simp only [DF.Full] at hn ⊢
    have i2 := h2 hn.2.1 ha
    have i3 := h3 hn.2.2 hb
    refine ⟨⟨hn.1, i2.1, i3.1⟩, fun x hx => ?_⟩
    simp only [DF.terms, List.mem_append] at hx ⊢
    have j2 := i2.2 x
    have j3 := i3.2 x
    tauto
  | _ => exact hk _ _ h hn

theorem hoistList_sub {k : List DF → Py DF} (hk : ∀ ns r, k ns = .ok r → ∀ x ∈ r.terms, x ∈ DF.termsList ns)
    {ns done : List DF} {r : DF} (h : hoistList k done ns = .ok r) : ∀ x ∈ r.terms, x ∈ DF.termsList (done ++ ns) := by
  induction ns generalizing done r with
  | nil => simpa using hk _ _ h
  | cons n ns ih =>
    simp only [hoistList] at h
    have := hoistNode_sub (E := fun x => x ∈ DF.termsList (done ++ ns)) (fun m r' hm x hx => ?_) h
    · intro x hx
      have := this x hx
      simp only [termsList_append, DF.termsList, List.mem_append] at this ⊢
      tauto
    · have := ih hm x hx
      simp only [termsList_append, DF.termsList, List.mem_append, List.append_nil] at this ⊢
      tauto

theorem hoistList_sup {k : List DF → Py DF}
    (hk : ∀ ns r, k ns = .ok r → DF.FullL ns → r.Full ∧ ∀ x ∈ DF.termsList ns, x ∈ r.terms)
    {ns done : List DF} {r : DF} (hd : DF.FullL done) (hn : DF.FullL ns) (h : hoistList k done ns = .ok r) :
    r.Full ∧ ∀ x ∈ DF.termsList (done ++ ns), x ∈ r.terms := by
  induction ns generalizing done r with
  | nil => simpa using hk _ _ h hd
  | cons n ns ih =>
    simp only [hoistList] at h
    simp only [DF.FullL] at hn
    have := hoistNode_sup (E := fun x => x ∈ DF.termsList (done ++ ns)) (fun m r' hm hf => ?_) hn.1 h
    · refine ⟨this.1, fun x hx => this.2 x ?_⟩
      simp only [termsList_append, DF.termsList, List.mem_append] at hx ⊢
      tauto
    · have hd' : DF.FullL (done ++ [m]) := by
        rw [DF.fullL_iff] at hd ⊢
        intro y hy
        rcases List.mem_append.mp hy with h' | h'
        · exact hd y h'
        · simp at h'; rw [h']; exact hf
      have := ih hd' hn.2 hm
      refine ⟨this.1, fun x hx => this.2 x ?_⟩
      simp only [termsList_append, DF.termsList, List.mem_append, List.append_nil] at hx ⊢
      tauto

theorem mapM_reorder_sub {k : Nat} (ih : ∀ {t r}, reorder k t = .ok r → ∀ x ∈ r.terms, x ∈ t.terms) {ns rs : List DF}
    (h : ns.mapM (reorder k) = .ok rs) : ∀ x ∈ DF.termsList rs, x ∈ DF.termsList ns := by
  rw [mapM_ok] at h
  induction h with
  | nil => simp
  | cons h1 _ ih' =>
    intro x hx
    simp only [DF.termsList, List.mem_append] at hx ⊢
    rcases hx with hx | hx
    · exact Or.inl (ih h1 x hx)
    · exact Or.inr (ih' x hx)

theorem mapM_reorder_sup {k : Nat} (ih : ∀ {t r}, t.Full → reorder k t = .ok r → r.Full ∧ ∀ x ∈ t.terms, x ∈ r.terms)
    {ns rs : List DF} (hn : DF.FullL ns) (h : ns.mapM (reorder k) = .ok rs) :
    DF.FullL rs ∧ ∀ x ∈ DF.termsList ns, x ∈ DF.termsList rs := by
  rw [mapM_ok] at h
  induction h with
  | nil => simp [DF.FullL]
  | cons h1 _ ih' =>
    simp only [DF.FullL] at hn ⊢
    have a := ih hn.1 h1
    have b := ih' hn.2
    refine ⟨⟨a.1, b.1⟩, fun x hx => ?_⟩
    simp only [DF.termsList, List.mem_append] at hx ⊢
    rcases hx with hx | hx
    · exact Or.inl (a.2 x hx)
    · exact Or.inr (b.2 x hx)

/-- **C52**: every signal of a reordered tree occurs in the tree. -/
theorem C52_no_new_signals (k : Nat) (t r : DF) (h : reorder k t = .ok r) : ∀ x ∈ r.terms, x ∈ t.terms := by
  induction k generalizing t r with
  | zero => simp [reorder] at h
  | succ k ih =>
    unfold reorder at h
    split at h
    · simp only [bind_ok, ok_inj] at h
      obtain ⟨t', ht, f', hf, c', hc, rfl⟩ := h
      intro x hx
      have hx : x ∈ (DF.branch c' t' f').terms := by
        split at hx
        · exact (insertBranch_terms _ _ _ _).mp hx
        · exact hx
      have a := ih _ _ ht x
      have b := ih _ _ hf x
      have c := ih _ _ hc x
      simp only [DF.terms, List.mem_append] at hx ⊢
      tauto
    · simp only [bind_ok] at h
      obtain ⟨rs, hrs, h⟩ := h
      have hs := mapM_reorder_sub (fun h => ih _ _ h) hrs
      intro x hx
      refine hs x ?_
      split at h
      · simpa using hoistList_sub (fun ns r hr x hx => by rw [mkOp_terms hr] at hx; exact hx) h x hx
      · rw [mkOp_terms h] at hx; exact hx
    · simp only [bind_ok] at h
      obtain ⟨rs, hrs, h⟩ := h
      have hs := mapM_reorder_sub (fun h => ih _ _ h) hrs
      intro x hx
      refine hs x ?_
      split at h
      · have := hoistList_sub (fun ns r hr x hx => by rw [ok_inj] at hr; subst hr; exact hx) h x hx
        simpa using this
      · rw [ok_inj] at h; subst h; exact hx
    · simp only [bind_ok] at h
      obtain ⟨m', hm, l', hl, v', hv, h⟩ := h
      intro x hx
      have a := ih _ _ hm x
      have b := ih _ _ hl x
      have c := ih _ _ hv x
      suffices hh : x ∈ v'.terms ∨ (x ∈ m'.terms ∨ x ∈ l'.terms) by
        simp only [DF.terms, List.mem_append]; tauto
      split at h
      · exact absurd h (by simp)
      split at h
      · refine hoistNode_sub (E := fun x => x ∈ m'.terms ∨ x ∈ l'.terms) (fun n r hr x hx => ?_) h x hx
        split at hr
        · rw [ok_inj] at hr; subst hr; simp [DF.terms] at hx
        · rw [ok_inj] at hr; subst hr; simp only [DF.terms, List.mem_append] at hx; tauto
      · rw [ok_inj] at h; subst h; simp only [DF.terms, List.mem_append] at hx; tauto
    · simp only [bind_ok] at h
      obtain ⟨p', hp, v', hv, h⟩ := h
      intro x hx
      have a := ih _ _ hp x
      have c := ih _ _ hv x
      suffices hh : x ∈ v'.terms ∨ x ∈ p'.terms by
        simp only [DF.terms, List.mem_append]; tauto
      split at h
      · simp only [bind_ok, ok_inj] at h
        obtain ⟨u, hu, w, hw, rfl⟩ := h
        have d := ih _ _ hu x
        have e := ih _ _ hw x
        simp only [DF.terms, List.mem_append] at d e hx ⊢
        tauto
      · split at h
        · refine hoistNode_sub (E := fun x => x ∈ p'.terms) (fun n r hr x hx => ?_) h x hx
          split at hr
          · rw [ok_inj] at hr; subst hr; simp [DF.terms] at hx
          · rw [ok_inj] at hr; subst hr; simp only [DF.terms, List.mem_append] at hx; tauto
        · rw [ok_inj] at h; subst h; simp only [DF.terms, List.mem_append] at hx; tauto
    · simp only [bind_ok, ok_inj] at h
      obtain ⟨n', hn, rfl⟩ := h
      intro x hx
      exact ih _ _ hn x hx
    · exact absurd h (by simp)
    · rw [ok_inj] at h; subst h; intro x hx; exact hx

theorem reorder_full (k : Nat) (t r : DF) (hF : t.Full) (h : reorder k t = .ok r) :
    r.Full ∧ ∀ x ∈ t.terms, x ∈ r.terms := by
  induction k generalizing t r with
  | zero => simp [reorder] at h
  | succ k ih =>
    unfold reorder at h
    split at h
    · simp only [bind_ok, ok_inj] at h
      obtain ⟨t', ht, f', hf, c', hc, rfl⟩ := h
      simp only [DF.Full] at hF
      have a := ih _ _ hF.2.1 ht
      have b := ih _ _ hF.2.2 hf
      have c := ih _ _ hF.1 hc
      split
      · refine ⟨insertBranch_full c.1 a.1 b.1, fun x hx => (insertBranch_terms _ _ _ _).mpr ?_⟩
        have a2 := a.2 x
        have b2 := b.2 x
        have c2 := c.2 x
        simp only [DF.terms, List.mem_append] at hx ⊢; tauto
      · refine ⟨⟨c.1, a.1, b.1⟩, fun x hx => ?_⟩
        have a2 := a.2 x
        have b2 := b.2 x
        have c2 := c.2 x
        simp only [DF.terms, List.mem_append] at hx ⊢; tauto
    · simp only [bind_ok] at h
      obtain ⟨rs, hrs, h⟩ := h
      have hs := mapM_reorder_sup (fun hf h => ih _ _ hf h) hF hrs
      have hk : ∀ o ns r, DF.mkOp o ns = .ok r → DF.FullL ns → r.Full ∧ ∀ x ∈ DF.termsList ns, x ∈ r.terms := by
        intro o ns r hr hn
        obtain ⟨rfl, -⟩ := DF.mkOp_ok hr
        exact ⟨hn, fun x hx => hx⟩
      split at h
      · have := hoistList_sup (hk _) (by simp [DF.FullL]) hs.1 h
        exact ⟨this.1, fun x hx => this.2 x (by simpa using hs.2 x hx)⟩
      · have := hk _ _ _ h hs.1
        exact ⟨this.1, fun x hx => this.2 x (hs.2 x hx)⟩
    · simp only [bind_ok] at h
      obtain ⟨rs, hrs, h⟩ := h
      have hs := mapM_reorder_sup (fun hf h => ih _ _ hf h) hF hrs
      have hk : ∀ ns r, (Except.ok (.concat ns) : Py DF) = .ok r → DF.FullL ns →
          r.Full ∧ ∀ x ∈ DF.termsList ns, x ∈ r.terms := by
        intro ns r hr hn
        rw [ok_inj] at hr; subst hr
        exact ⟨hn, fun x hx => hx⟩
      split at h
      · have := hoistList_sup hk (by simp [DF.FullL]) hs.1 h
        exact ⟨this.1, fun x hx => this.2 x (by simpa using hs.2 x hx)⟩
      · have := hk _ _ h hs.1
        exact ⟨this.1, fun x hx => this.2 x (hs.2 x hx)⟩
    · simp only [bind_ok] at h
      obtain ⟨m', hm, l', hl, v', hv, h⟩ := h
      simp only [DF.Full] at hF
      have a := ih _ _ hF.2.1 hm
      have b := ih _ _ hF.2.2 hl
      have c := ih _ _ hF.1 hv
      suffices hh : r.Full ∧ ∀ x, x ∈ v'.terms ∨ (x ∈ m'.terms ∨ x ∈ l'.terms) → x ∈ r.terms by
        refine ⟨hh.1, fun x hx => hh.2 x ?_⟩
        have a2 := a.2 x
        have b2 := b.2 x
        have c2 := c.2 x
        simp only [DF.terms, List.mem_append] at hx; tauto
      split at h
      · exact absurd h (by simp)
      split at h
      · refine hoistNode_sup (fun n r hr hn => ?_) c.1 h
        split at hr
        · exact absurd hn (by simp [DF.Full])
        · rw [ok_inj] at hr; subst hr
          refine ⟨⟨hn, a.1, b.1⟩, fun x hx => ?_⟩
          simp only [DF.terms, List.mem_append]; tauto
      · rw [ok_inj] at h; subst h
        refine ⟨⟨c.1, a.1, b.1⟩, fun x hx => ?_⟩
        simp only [DF.terms, List.mem_append]; tauto
    · simp only [bind_ok] at h
      obtain ⟨p', hp, v', hv, h⟩ := h
      simp only [DF.Full] at hF
      have a := ih _ _ hF.2 hp
      have c := ih _ _ hF.1 hv
      suffices hh : r.Full ∧ ∀ x, x ∈ v'.terms ∨ x ∈ p'.terms → x ∈ r.terms by
        refine ⟨hh.1, fun x hx => hh.2 x ?_⟩
        have a2 := a.2 x
        have c2 := c.2 x
        simp only [DF.terms, List.mem_append] at hx; tauto
      split at h
      · simp only [bind_ok, ok_inj] at h
        obtain ⟨u, hu, w, hw, rfl⟩ := h
        have a1 := a.1
        simp only [DF.Full] at a1
        have d := ih _ _ (by simp only [DF.Full]; exact ⟨c.1, a1.2.1⟩) hu
        have e := ih _ _ (by simp only [DF.Full]; exact ⟨c.1, a1.2.2⟩) hw
        refine ⟨⟨a1.1, d.1, e.1⟩, fun x hx => ?_⟩
        have d2 := d.2 x
        have e2 := e.2 x
        simp only [DF.terms, List.mem_append] at d2 e2 hx ⊢
        tauto
      · split at h
        · refine hoistNode_sup (fun n r hr hn => ?_) c.1 h
          split at hr
          · exact absurd hn (by simp [DF.Full])
          · rw [ok_inj] at hr; subst hr
            refine ⟨⟨hn, a.1⟩, fun x hx => ?_⟩
            simp only [DF.terms, List.mem_append]; tauto
        · rw [ok_inj] at h; subst h
          refine ⟨⟨c.1, a.1⟩, fun x hx => ?_⟩
          simp only [DF.terms, List.mem_append]; tauto
    · simp only [bind_ok, ok_inj] at h
      obtain ⟨n', hn, rfl⟩ := h
      simp only [DF.Full] at hF ⊢
      have q := ih _ _ hF hn
      exact ⟨q.1, fun x hx => q.2 x hx⟩
    · exact absurd h (by simp)
    · rw [ok_inj] at h; subst h; exact ⟨hF, fun x hx => hx⟩

/-- **C52**: reordering a tree without missing sides keeps exactly its set of signals. -/
theorem C52_same_signals_partial (k : Nat) (t r : DF) (hF : t.Full) (h : reorder k t = .ok r) (x : ScopeChain) :
    x ∈ r.terms ↔ x ∈ t.terms := ⟨C52_no_new_signals k t r h x, (reorder_full k t r hF h).2 x⟩

/-- Non-vacuity: `(s ? a : b)[i]` becomes `s ? a[i] : b[i]`. -/
example : (DF.ptr (.branch (c14n 's') (c14n 'a') (c14n 'b')) (c14n 'i')).Full ∧
    reorder 5 (.ptr (.branch (c14n 's') (c14n 'a') (c14n 'b')) (c14n 'i')) =
      .ok (.branch (c14n 's') (.ptr (c14n 'a') (c14n 'i')) (.ptr (c14n 'b') (c14n 'i'))) := by
  exact ⟨by simp [DF.Full, c14n], by decide⟩

/-- With missing sides a signal can be lost: selecting from `s ? <missing> : <missing>` drops the index `i`. -/
theorem C52_missing_side_loses_signal :
    reorder 5 (.ptr (.branch (c14n 's') .none .none) (c14n 'i')) = .ok (.branch (c14n 's') .none .none) := by decide

end Pyv
