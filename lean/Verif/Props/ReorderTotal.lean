import Verif.Props.ReplaceProps
/-
  C14, C17: when `reorder` and `replaceUndefined` succeed.
-/
namespace Pyv

/-! ### replaceUndefined -/

mutual
/-- No high impedance, delay or system call node in the tree. -/
def Replaceable : DF → Prop
  | .hiz _ => False
  | .delay _ => False
  | .sys _ _ => False
  | .op _ ns => ReplaceableL ns
  | .concat ns => ReplaceableL ns
  | .psel v m l => Replaceable v ∧ Replaceable m ∧ Replaceable l
  | .ptr v p => Replaceable v ∧ Replaceable p
  | .branch c t f => Replaceable c ∧ Replaceable t ∧ Replaceable f
  | _ => True
/-- The same for lists. -/
def ReplaceableL : List DF → Prop
  | [] => True
  | n :: ns => Replaceable n ∧ ReplaceableL ns
end

theorem replaceableL_iff {ns} : ReplaceableL ns ↔ ∀ n ∈ ns, Replaceable n := by
  induction ns with
  | nil => simp [ReplaceableL]
  | cons a ns ih => simp [ReplaceableL, ih]

theorem replaceList_total {name ns} :
    (∃ rs, replaceUndefinedList name ns = .ok rs) ↔ ∀ n ∈ ns, ∃ r, replaceUndefined name n = .ok r := by
  induction ns with
  | nil => simp [replaceUndefinedList]
  | cons n ns ih =>
    constructor
    · rintro ⟨rs, h⟩
      simp only [replaceUndefinedList, bind_ok, ok_inj] at h
      obtain ⟨x, hx, xs, hxs, rfl⟩ := h
      intro m hm
      rcases List.mem_cons.mp hm with rfl | hm
      · exact ⟨x, hx⟩
      · exact ih.mp ⟨xs, hxs⟩ m hm
    · intro h
      obtain ⟨x, hx⟩ := h n (by simp)
      obtain ⟨xs, hxs⟩ := ih.mpr (fun m hm => h m (by simp [hm]))
      exact ⟨x :: xs, by simp only [replaceUndefinedList, bind_ok, ok_inj]; exact ⟨x, hx, xs, hxs, rfl⟩⟩

/-- **C17** (totality) `replaceUndefined` succeeds exactly on the trees without high impedance, delay and system call
nodes. -/
theorem C17_replace_total (name : ScopeChain) (t : DF) :
    (∃ r, replaceUndefined name t = .ok r) ↔ Replaceable t := by
  induction t using DF.ind with
  | op o ns ih =>
    simp only [Replaceable, replaceableL_iff]
    have : (∀ n ∈ ns, Replaceable n) ↔ ∃ rs, replaceUndefinedList name ns = .ok rs := by
      rw [replaceList_total]
      exact ⟨fun h n hn => (ih n hn).mpr (h n hn), fun h n hn => (ih n hn).mp (h n hn)⟩
    rw [this]
    constructor
    · rintro ⟨r, h⟩
      simp only [replaceUndefined, bind_ok] at h
      obtain ⟨rs, hrs, _⟩ := h
      exact ⟨rs, hrs⟩
    · rintro ⟨rs, hrs⟩
      have hno : DF.none ∉ rs := by
        intro hm
        have h2 := replaceList_mem hrs
        have : ∀ r ∈ rs, ∃ n, replaceUndefined name n = .ok r := by
          clear hm hrs this ih
          induction h2 with
          | nil => simp
          | cons a _ ih2 =>
            intro r hr
            rcases List.mem_cons.mp hr with rfl | hr
            · exact ⟨_, a⟩
            · exact ih2 r hr
        obtain ⟨n, hn⟩ := this _ hm
        exact C17_replace_complete name n _ hn
      exact ⟨.op o rs, by simp only [replaceUndefined, bind_ok]; exact ⟨rs, hrs, by simp [DF.mkOp, hno]⟩⟩
  | concat ns ih =>
    simp only [Replaceable, replaceableL_iff]
    have : (∀ n ∈ ns, Replaceable n) ↔ ∃ rs, replaceUndefinedList name ns = .ok rs := by
      rw [replaceList_total]
      exact ⟨fun h n hn => (ih n hn).mpr (h n hn), fun h n hn => (ih n hn).mp (h n hn)⟩
    rw [this]
    simp only [replaceUndefined, bind_ok, ok_inj]
    exact ⟨fun ⟨r, rs, h, _⟩ => ⟨rs, h⟩, fun ⟨rs, h⟩ => ⟨_, rs, h, rfl⟩⟩
  | psel v m l h1 h2 h3 =>
    simp only [Replaceable, ← h1, ← h2, ← h3, replaceUndefined, bind_ok, ok_inj]
    constructor
    · rintro ⟨r, a, ha, b, hb, c, hc, _⟩; exact ⟨⟨c, hc⟩, ⟨a, ha⟩, b, hb⟩
    · rintro ⟨⟨c, hc⟩, ⟨a, ha⟩, b, hb⟩; exact ⟨_, a, ha, b, hb, c, hc, rfl⟩
  | ptr v p h1 h2 =>
    simp only [Replaceable, ← h1, ← h2, replaceUndefined, bind_ok, ok_inj]
    constructor
    · rintro ⟨r, a, ha, b, hb, _⟩; exact ⟨⟨b, hb⟩, a, ha⟩
    · rintro ⟨⟨b, hb⟩, a, ha⟩; exact ⟨_, a, ha, b, hb, rfl⟩
  | branch v m l h1 h2 h3 =>
    simp only [Replaceable, ← h1, ← h2, ← h3, replaceUndefined, bind_ok, ok_inj]
    constructor
    · rintro ⟨r, a, ha, b, hb, c, hc, _⟩; exact ⟨⟨a, ha⟩, ⟨b, hb⟩, c, hc⟩
    · rintro ⟨⟨a, ha⟩, ⟨b, hb⟩, c, hc⟩; exact ⟨_, a, ha, b, hb, c, hc, rfl⟩
  | _ => simp [replaceUndefined, Replaceable]

/-! ### reorder -/

mutual
/-- Trees on which `reorder` raises nothing: no system call, no conditional in the bounds of a part-select, and no
missing subtree where it would become an operand of an operator (`under`). -/
def Reorderable (under : Bool) : DF → Prop
  | .none => under = false
  | .sys _ _ => False
  | .op _ ns => ReorderableL true ns
  | .concat ns => ReorderableL false ns
  | .psel v m l => Reorderable under v ∧ Reorderable false m ∧ Reorderable false l ∧ CondFree m ∧ CondFree l
  | .ptr v p => Reorderable under v ∧ Reorderable false p
  | .branch c t f => Reorderable false c ∧ Reorderable under t ∧ Reorderable under f
  | .delay n => Reorderable false n
  | _ => True
/-- The same for lists. -/
def ReorderableL (under : Bool) : List DF → Prop
  | [] => True
  | n :: ns => Reorderable under n ∧ ReorderableL under ns
end

theorem reorderableL_iff {b ns} : ReorderableL b ns ↔ ∀ n ∈ ns, Reorderable b n := by
  induction ns with
  | nil => simp [ReorderableL]
  | cons a ns ih => simp [ReorderableL, ih]

/-- The reordering of a tree without conditionals is not a conditional. -/
theorem reorder_not_branch {k t r} (hc : CondFree t) (h : reorder k t = .ok r) : r.isBranch = false := by
  induction k generalizing t r with
  | zero => simp [reorder] at h
  | succ k ih =>
    have hL : ∀ {ns rs}, CondFreeL ns → List.mapM (reorder k) ns = .ok rs → rs.any DF.isBranch = false := by
      intro ns rs hns hm
      rw [mapM_ok] at hm
      induction hm with
      | nil => rfl
      | cons a _ ih2 =>
        simp only [CondFreeL] at hns
        simp only [List.any_cons, ih hns.1 a, ih2 hns.2, Bool.or_false]
    cases t with
    | branch c a b => simp [CondFree] at hc
    | op o ns =>
      simp only [reorder, bind_ok] at h
      obtain ⟨rs, hrs, h⟩ := h
      rw [hL hc hrs] at h
      simp only [Bool.false_eq_true, if_false] at h
      obtain ⟨rfl, _⟩ := DF.mkOp_ok h
      rfl
    | concat ns =>
      simp only [reorder, bind_ok] at h
      obtain ⟨rs, hrs, h⟩ := h
      rw [hL hc hrs] at h
      simp only [Bool.false_eq_true, if_false, ok_inj] at h
      subst h; rfl
    | psel v m l =>
      simp only [CondFree] at hc
      simp only [reorder, bind_ok] at h
      obtain ⟨m', hm, l', hl, v', hv, h⟩ := h
      rw [ih hc.2.1 hm, ih hc.2.2 hl, ih hc.1 hv] at h
      simp at h; subst h; rfl
    | ptr v p =>
      simp only [CondFree] at hc
      simp only [reorder, bind_ok] at h
      obtain ⟨p', hp, v', hv, h⟩ := h
      have hp' := ih hc.2 hp
      split at h
      · simp [DF.isBranch] at hp'
      · rw [ih hc.1 hv] at h
        simp at h; subst h; rfl
    | delay n =>
      simp only [reorder, bind_ok, ok_inj] at h
      obtain ⟨_, _, rfl⟩ := h; rfl
    | sys s ns => simp [reorder] at h
    | _ => simp [reorder] at h; subst h; rfl

theorem insertBranch_reorderable {b c t f} (hc : Reorderable false c) (ht : Reorderable b t) (hf : Reorderable b f) :
    Reorderable b (insertBranch c t f) := by
  induction c using DF.ind with
  | branch a x y h1 h2 h3 =>
    simp only [Reorderable] at hc
    simp only [insertBranch, Reorderable]
    exact ⟨hc.1, h2 hc.2.1, h3 hc.2.2⟩
  | _ => exact ⟨hc, ht, hf⟩

theorem hoistNode_total {b b' : Bool} {k : DF → Py DF}
    (hk : ∀ n, n.isBranch = false → Reorderable b n → ∃ r, k n = .ok r ∧ Reorderable b' r) {n}
    (hn : Reorderable b n) : ∃ r, hoistNode k n = .ok r ∧ Reorderable b' r := by
  induction n using DF.ind with
  | branch c t f _ h2 h3 =>
    simp only [Reorderable] at hn
    obtain ⟨x, hx, gx⟩ := h2 hn.2.1
    obtain ⟨y, hy, gy⟩ := h3 hn.2.2
    exact ⟨.branch c x y, by simp only [hoistNode, bind_ok, ok_inj]; exact ⟨x, hx, y, hy, rfl⟩, hn.1, gx, gy⟩
  | _ => exact hk _ rfl hn

theorem hoistList_total {b b' : Bool} {k : List DF → Py DF}
    (hk : ∀ ns, (∀ n ∈ ns, n.isBranch = false ∧ Reorderable b n) → ∃ r, k ns = .ok r ∧ Reorderable b' r) {done ns}
    (hd : ∀ n ∈ done, n.isBranch = false ∧ Reorderable b n) (hn : ∀ n ∈ ns, Reorderable b n) :
    ∃ r, hoistList k done ns = .ok r ∧ Reorderable b' r := by
  induction ns generalizing done with
  | nil => exact hk done hd
  | cons n ns ih =>
    refine hoistNode_total (fun m hm gm => ih ?_ (fun x hx => hn x (by simp [hx]))) (hn n (by simp))
    intro x hx
    rcases List.mem_append.mp hx with hx | hx
    · exact hd x hx
    · simp at hx; subst hx; exact ⟨hm, gm⟩

theorem mkOp_total {o ns b} (h : ∀ n ∈ ns, Reorderable true n) :
    ∃ r, DF.mkOp o ns = .ok r ∧ Reorderable b r := by
  refine ⟨.op o ns, ?_, ?_⟩
  · have : DF.none ∉ ns := fun hm => by simpa [Reorderable] using h _ hm
    simp [DF.mkOp, this]
  · simp only [Reorderable, reorderableL_iff]; exact h

theorem reorder_total_step (k : Nat) (b : Bool) (t : DF) (ht : Reorderable b t) :
    reorder k t = .error .recursion ∨ ∃ r, reorder k t = .ok r ∧ Reorderable b r := by
  induction k generalizing t b with
  | zero => exact .inl rfl
  | succ k ih =>
    have hL : ∀ {b ns}, (∀ n ∈ ns, Reorderable b n) → List.mapM (reorder k) ns = .error .recursion ∨
        ∃ rs, List.mapM (reorder k) ns = .ok rs ∧ ∀ n ∈ rs, Reorderable b n := by
      intro b ns h
      induction ns with
      | nil => exact .inr ⟨[], rfl, by simp⟩
      | cons n ns ih2 =>
        rcases ih b n (h n (by simp)) with h1 | ⟨r, h1, g1⟩
        · left; rw [List.mapM_cons, h1]; rfl
        · rcases ih2 (fun m hm => h m (by simp [hm])) with h2 | ⟨rs, h2, g2⟩
          · left; rw [List.mapM_cons, h1, h2]; rfl
          · right
            refine ⟨r :: rs, by rw [List.mapM_cons, h1, h2]; rfl, ?_⟩
            intro m hm
            rcases List.mem_cons.mp hm with rfl | hm
            · exact g1
            · exact g2 m hm
    cases t with
    | branch c t f =>
      simp only [Reorderable] at ht
      rcases ih b t ht.2.1 with h1 | ⟨t', h1, g1⟩
      · left; simp only [reorder, h1]; rfl
      rcases ih b f ht.2.2 with h2 | ⟨f', h2, g2⟩
      · left; simp only [reorder, h1, h2]; rfl
      rcases ih false c ht.1 with h3 | ⟨c', h3, g3⟩
      · left; simp only [reorder, h1, h2, h3]; rfl
      right
      refine ⟨if c'.isBranch then insertBranch c' t' f' else .branch c' t' f', by simp only [reorder, h1, h2, h3]; rfl, ?_⟩
      split
      · exact insertBranch_reorderable g3 g1 g2
      · exact ⟨g3, g1, g2⟩
    | op o ns =>
      simp only [Reorderable, reorderableL_iff] at ht
      rcases hL ht with h1 | ⟨rs, h1, g1⟩
      · left; simp only [reorder, h1]; rfl
      · right
        have e : reorder (k + 1) (.op o ns) = if rs.any DF.isBranch then insertOpList rs o else DF.mkOp o rs := by
          simp only [reorder, h1]; rfl
        rw [e]
        split
        · exact hoistList_total (b := true) (fun ns h => mkOp_total (fun n hn => (h n hn).2)) (by simp) g1
        · exact mkOp_total g1
    | concat ns =>
      simp only [Reorderable, reorderableL_iff] at ht
      rcases hL ht with h1 | ⟨rs, h1, g1⟩
      · left; simp only [reorder, h1]; rfl
      · right
        have e : reorder (k + 1) (.concat ns) = if rs.any DF.isBranch then insertConcat rs else .ok (.concat rs) := by
          simp only [reorder, h1]; rfl
        rw [e]
        split
        · exact hoistList_total (b := false) (fun ns h => ⟨_, rfl, by
            simp only [Reorderable, reorderableL_iff]; exact fun n hn => (h n hn).2⟩) (by simp) g1
        · exact ⟨_, rfl, by simp only [Reorderable, reorderableL_iff]; exact g1⟩
    | psel v m l =>
      simp only [Reorderable] at ht
      rcases ih false m ht.2.1 with h1 | ⟨m', h1, g1⟩
      · left; simp only [reorder, h1]; rfl
      rcases ih false l ht.2.2.1 with h2 | ⟨l', h2, g2⟩
      · left; simp only [reorder, h1, h2]; rfl
      rcases ih b v ht.1 with h3 | ⟨v', h3, g3⟩
      · left; simp only [reorder, h1, h2, h3]; rfl
      right
      have bm := reorder_not_branch ht.2.2.2.1 h1
      have bl := reorder_not_branch ht.2.2.2.2 h2
      have cm := nf_condFree (nf_false_of_not_branch (reorder_nf h1) bm)
      have cl := nf_condFree (nf_false_of_not_branch (reorder_nf h2) bl)
      have e : reorder (k + 1) (.psel v m l) = if v'.isBranch then insertPartselect v' m' l' else .ok (.psel v' m' l') := by
        simp only [reorder, h1, h2, h3, bind, Except.bind, bm, bl]; rfl
      rw [e]
      split
      · refine hoistNode_total (b := b) (fun n _ gn => ?_) g3
        cases n with
        | none => exact ⟨.none, rfl, gn⟩
        | _ => exact ⟨_, rfl, gn, g1, g2, cm, cl⟩
      · exact ⟨_, rfl, g3, g1, g2, cm, cl⟩
    | ptr v p =>
      simp only [Reorderable] at ht
      rcases ih false p ht.2 with h1 | ⟨p', h1, g1⟩
      · left; simp only [reorder, h1]; rfl
      rcases ih b v ht.1 with h2 | ⟨v', h2, g2⟩
      · left; simp only [reorder, h1, h2]; rfl
      by_cases hb : ∃ c pt pf, p' = .branch c pt pf
      · obtain ⟨c, pt, pf, rfl⟩ := hb
        simp only [Reorderable] at g1
        rcases ih b (.ptr v' pt) ⟨g2, g1.2.1⟩ with h3 | ⟨x, h3, g3⟩
        · left; simp only [reorder, h1, h2, bind, Except.bind, h3]
        rcases ih b (.ptr v' pf) ⟨g2, g1.2.2⟩ with h4 | ⟨y, h4, g4⟩
        · left; simp only [reorder, h1, h2, bind, Except.bind, h3, h4]
        right
        exact ⟨.branch c x y, by simp only [reorder, h1, h2, bind, Except.bind, h3, h4], g1.1, g3, g4⟩
      · right
        have e : reorder (k + 1) (.ptr v p) = if v'.isBranch then insertPointer v' p' else .ok (.ptr v' p') := by
          simp only [reorder, h1, h2, bind, Except.bind]
          split
          · exact absurd ⟨_, _, _, rfl⟩ hb
          · rfl
        rw [e]
        split
        · refine hoistNode_total (b := b) (fun n _ gn => ?_) g2
          cases n with
          | none => exact ⟨.none, rfl, gn⟩
          | _ => exact ⟨_, rfl, gn, g1⟩
        · exact ⟨_, rfl, g2, g1⟩
    | delay n =>
      simp only [Reorderable] at ht
      rcases ih false n ht with h1 | ⟨n', h1, g1⟩
      · left; simp only [reorder, h1]; rfl
      · right; exact ⟨.delay n', by simp only [reorder, h1]; rfl, g1⟩
    | sys s ns => simp [Reorderable] at ht
    | none => right; exact ⟨.none, rfl, ht⟩
    | _ => right; exact ⟨_, rfl, by simp [Reorderable]⟩

/-- **C14** (totality) `reorder` returns on every tree without system calls, without conditionals in part-select
bounds and without missing subtrees that would become operands of an operator. -/
theorem C14_reorder_total (t : DF) (ht : Reorderable false t) : ∃ N r, ∀ k ≥ N, reorder k t = .ok r := by
  obtain ⟨x, hx, N, hN⟩ := C16_reorder_terminates t
  rcases reorder_total_step N false t ht with h | ⟨r, h, _⟩
  · rw [hN N (le_refl N)] at h; exact absurd h hx
  · rw [hN N (le_refl N)] at h
    exact ⟨N, r, fun k hk => by rw [hN k hk, h]⟩

/-- Non-vacuity: the tree of the C14 example; a conditional without else branch outside operators. -/
example : Reorderable false c14t ∧ Reorderable false (.branch (c14n 's') (.concat [c14n 'a', .branch (c14n 's') (c14n 'b') .none]) .none) := by
  simp [c14t, c14n, Reorderable, ReorderableL]

end Pyv
