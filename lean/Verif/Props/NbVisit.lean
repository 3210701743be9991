import Verif.Props.NbSim
/-
  C58: the visitor of Binder.lean does to the tree and the record of a signal what the machine of NbTree.lean does
  (destinations, frames, statements), and the theorem.
-/
namespace Pyv

section
variable {s s' : BV} {mod x : ScopeChain} {ai : Blk} {c : ScopeChain} {p : ExPath}

theorem py_pure {α : Type} (a : α) : (pure a : Py α) = .ok a := rfl

/-! ### Destinations -/

theorem dstName_chain (hc : Chain s.frames mod x ai c p) (hf : FlatTerms s.terms mod) {v n y r}
    (hn : baseName v = some n) (hy : resOf s.terms mod n = some y) (h : s.dstName v c = .ok r) : r = some y := by
  cases v <;> simp only [BV.dstName, reduceCtorEq] at h
  rename_i sc m
  cases sc with
  | cons a as => simp [baseName] at hn
  | nil =>
    simp only [baseName, Option.some.injEq] at hn
    subst hn
    simp only [search_chain hc hf, ok_bind, if_true, ok_inj] at h
    rw [← h, hy]

theorem getDst_chain (hc : Chain s.frames mod x ai c p) (hf : FlatTerms s.terms mod) (l : Ex) : ∀ {n y d s'},
    baseName l = some n → resOf s.terms mod n = some y → s.getDst c l = .ok (d, s') →
    d.name = some y ∧ s' = s ∧ (∀ m, l = .ident [] m → d.msb = .none ∧ d.lsb = .none ∧ d.ptr = .none) := by
  induction l using Ex.ind with
  | ident sc m =>
    intro n y d s' hn hy h
    cases sc with
    | cons a as => simp [baseName] at hn
    | nil =>
      simp only [baseName, Option.some.injEq] at hn
      subst hn
      simp only [BV.getDst, search_chain hc hf, hy, ok_bind, if_true, ok_inj, Prod.mk.injEq] at h
      obtain ⟨rfl, rfl⟩ := h
      exact ⟨rfl, rfl, fun _ _ => ⟨rfl, rfl, rfl⟩⟩
  | psel v m l ihv _ _ =>
    intro n y d s' hn hy h
    simp only [baseName] at hn
    by_cases hv : ∃ a b, v = .ptr a b
    · obtain ⟨a, b, rfl⟩ := hv
      simp only [BV.getDst, bind_ok] at h
      obtain ⟨⟨d1, s1⟩, h1, h⟩ := h
      obtain ⟨g1, g2, -⟩ := ihv hn hy h1
      simp only at h
      split at h
      · simp only [bind_ok, ok_inj, Prod.mk.injEq] at h
        obtain ⟨_, _, _, _, _, _, _, _, rfl, rfl⟩ := h
        exact ⟨g1, g2, by intro m e; cases e⟩
      · cases h
    · have : ∃ r, s.dstName v c = .ok r ∧ d.name = r ∧ s' = s := by
        cases v <;> first | (exfalso; exact hv ⟨_, _, rfl⟩) | skip
        all_goals
          simp only [BV.getDst, bind_ok, ok_inj, Prod.mk.injEq] at h
          obtain ⟨r, hr, _, _, _, _, _, _, _, _, rfl, rfl⟩ := h
          exact ⟨r, hr, rfl, rfl⟩
      obtain ⟨r, h1, h2, h3⟩ := this
      exact ⟨h2.trans (dstName_chain hc hf hn hy h1), h3, by intro m e; cases e⟩
  | ptr v q ihv _ =>
    intro n y d s' hn hy h
    simp only [baseName] at hn
    by_cases hv : ∃ a b, v = .ptr a b
    · obtain ⟨a, b, rfl⟩ := hv
      simp only [BV.getDst, bind_ok] at h
      obtain ⟨⟨d1, s1⟩, h1, h⟩ := h
      obtain ⟨g1, g2, -⟩ := ihv hn hy h1
      simp only at h
      split at h
      · simp only [bind_ok, ok_inj, Prod.mk.injEq] at h
        obtain ⟨_, _, _, _, rfl, rfl⟩ := h
        exact ⟨g1, g2, by intro m e; cases e⟩
      · cases h
    · have : ∃ r, s.dstName v c = .ok r ∧ d.name = r ∧ s' = s := by
        cases v <;> first | (exfalso; exact hv ⟨_, _, rfl⟩) | skip
        all_goals
          simp only [BV.getDst, bind_ok] at h
          obtain ⟨r, hr, _, _, _, _, h⟩ := h
          refine ⟨r, hr, ?_⟩
          cases r with
          | none => cases h
          | some r =>
            simp only [bind_ok, ok_inj, Prod.mk.injEq] at h
            obtain ⟨a, _, rfl, rfl⟩ := h
            cases a <;> exact ⟨rfl, rfl⟩
      obtain ⟨r, h1, h2, h3⟩ := this
      exact ⟨h2.trans (dstName_chain hc hf hn hy h1), h3, by intro m e; cases e⟩
  | _ => intro n y d s' hn; simp [baseName] at hn

theorem getDestinations_chain (hc : Chain s.frames mod x ai c p) (hf : FlatTerms s.terms mod) {l : Ex} {n y ds s'}
    (hn : baseName l = some n) (hy : resOf s.terms mod n = some y) (h : s.getDestinations l c = .ok (ds, s')) :
    s' = s ∧ ∃ d : PDst, ds = [d] ∧ d.name = some y ∧ (∀ m, l = .ident [] m → d.msb = .none ∧ d.lsb = .none ∧ d.ptr = .none) := by
  simp only [BV.getDestinations, bind_ok] at h
  obtain ⟨⟨ds0, s0⟩, h1, h⟩ := h
  have h1' : ∃ d, s.getDst c l = .ok (d, s0) ∧ ds0 = [d] := by
    cases l <;> first | (exfalso; simp [baseName] at hn; done) | skip
    all_goals
      (simp only [BV.getDsts, bind_ok, ok_inj, Prod.mk.injEq] at h1
       obtain ⟨⟨d, s2⟩, h1, rfl, rfl⟩ := h1
       exact ⟨d, h1, rfl⟩)
  obtain ⟨d, hd, rfl⟩ := h1'
  obtain ⟨g1, rfl, g3⟩ := getDst_chain hc hf l hn hy hd
  simp only [ok_inj, Prod.mk.injEq] at h
  obtain ⟨rfl, rfl⟩ := h
  exact ⟨rfl, _, rfl, g1, g3⟩

theorem alwaysStatus_chain (hc : Chain s.frames mod x ai c p) : ∀ k a, s.alwaysStatus k c = .ok a → a = some ai.info := by
  induction hc with
  | base l f m h1 h2 h3 =>
    intro k a h
    cases k with
    | zero => simp [BV.alwaysStatus] at h
    | succ k =>
      simp only [BV.alwaysStatus, frame_ok h1, ok_bind, h2.always, h2.notF, h2.notT, h3] at h
      simpa using h.symm
  | block c p l f hc h1 h2 h3 _ h5 _ ih =>
    intro k a h
    cases k with
    | zero => simp [BV.alwaysStatus] at h
    | succ k =>
      simp only [BV.alwaysStatus, frame_ok h1, ok_bind, h2.always, h2.notF, h2.notT, h3, h5] at h
      exact ih k a (by simpa using h)
  | cond c p l f e hc h1 h2 h3 _ _ h5 _ ih =>
    intro k a h
    cases k with
    | zero => simp [BV.alwaysStatus] at h
    | succ k =>
      simp only [BV.alwaysStatus, frame_ok h1, ok_bind, h2.always, h2.notF, h2.notT, h3, h5] at h
      exact ih k a (by simpa using h)

/-! ### Assignments -/

/-- A nonblocking assignment to a declared signal. -/
theorem addBind_chain (hw : s.WF mod x ai) (hc : Chain s.frames mod x ai c p) (hcur : s.current = c) {l r : Ex} {n y ty}
    (hn : baseName l = some n) (hy : resOf s.terms mod n = some y) (hx : y = x → ∃ m, l = .ident [] m) (hr : y = x → r.flat = true)
    (hok : y = x → ai.ok (some ai.info)) (h : s.addBind l r (some ai.info) ty = .ok s') :
    Work s s' mod x ai c ∧
    if y = x then ∃ raw, (s.flatA mod).rhs r = .ok raw ∧ (s.flatA mod).put p (s.treeOf x) raw = .ok (s'.treeOf x) ∧ s'.recAt c x = some raw
    else s'.treeOf x = s.treeOf x ∧ s'.recAt c x = s.recAt c x := by
  simp only [BV.addBind, bind_ok] at h
  obtain ⟨⟨ds, s0⟩, hds, h⟩ := h
  rw [hcur] at hds
  obtain ⟨rfl, d, rfl, hd, hwh⟩ := getDestinations_chain hc hw.flat hn hy hds
  simp only [bind_ok] at h
  obtain ⟨p', hp', raw, hraw, h⟩ := h
  rw [hcur] at hp' hraw
  simp only [BV.setDataflow, List.foldlM_cons, List.foldlM_nil, bind_ok, py_pure, ok_inj] at h
  obtain ⟨s1, h, rfl⟩ := h
  simp only [BV.setDataflow1, bind_ok, List.length_cons, List.length_nil, Nat.zero_add] at h
  obtain ⟨b, hb, h⟩ := h
  obtain ⟨b1, b2, b3, b4, b5, b6⟩ := makeBind_ok hw hd hb
  have hbx : y = x → b.whole ∧ ai.ok b.always := by
    intro e
    obtain ⟨m, rfl⟩ := hx e
    obtain ⟨w1, w2, w3⟩ := hwh m rfl
    exact ⟨⟨b2.trans w1, b3.trans w2, b4.trans w3⟩, by rw [b5]; exact hok e⟩
  rw [b1] at h
  obtain ⟨k1, k2, k3⟩ := addBind_keeps hw b1 hbx
  simp only [BV.setNonblocking, gt_iff_lt, lt_self_iff_false, if_false, ok_bind] at h
  obtain ⟨w1, w2⟩ := k1.work hc
  obtain ⟨n1, n2, n3⟩ := addNonblocking_ext k1.wf (w1.chain hc) (w1.current.trans hcur) (by
    intro e
    obtain ⟨m, rfl⟩ := hx e
    obtain ⟨w1, w2, w3⟩ := hwh m rfl
    exact ⟨⟨w1, w2, w3⟩, hok e⟩) h
  refine ⟨w1.trans n1, ?_⟩
  by_cases e : y = x
  · rw [if_pos e]
    obtain ⟨m, rfl⟩ := hx e
    obtain ⟨v1, v2, v3⟩ := hwh m rfl
    refine ⟨raw, getTree_chain hc hw.flat hw.nore (hr e) hraw, ?_, by rw [n3, if_pos e]⟩
    simp only [TEnv.put, condflow_chain hc hw.flat hw.nore hp', ok_bind]
    rw [n2, k3 e]
    exact b6 e v1 v2 v3
  · rw [if_neg e]
    exact ⟨n2.trans (k2 e), by rw [n3, if_neg e, w2]⟩

/-- Copying one recorded assignment into the current frame. -/
theorem copy1_chain (hw : s.WF mod x ai) (hc : Chain s.frames mod x ai c p) (hcur : s.current = c) {p' : CondPath} {n b}
    (hx : n = x → b.whole ∧ ai.ok b.always) (h : BV.copyNonblocking1 p' s (n, b) = .ok s') :
    Work s s' mod x ai c ∧
    if n = x then bindTree s.reo (s.treeOf x) p' b.tree = .ok (s'.treeOf x) ∧ s'.recAt c x = some b.tree
    else s'.treeOf x = s.treeOf x ∧ s'.recAt c x = s.recAt c x := by
  simp only [BV.copyNonblocking1, bind_ok, ok_inj] at h
  obtain ⟨s1, h1, b1, hb1, rfl⟩ := h
  obtain ⟨n1, n2, n3⟩ := addNonblocking_ext hw hc hcur hx h1
  obtain ⟨c1, c2, c3, c4, c5, c6⟩ := makeBind_ok n1.wf rfl hb1
  have hbx : n = x → b1.whole ∧ ai.ok b1.always := by
    intro e
    obtain ⟨⟨w1, w2, w3⟩, w4⟩ := hx e
    exact ⟨⟨c2.trans w1, c3.trans w2, c4.trans w3⟩, by rw [c5]; exact w4⟩
  obtain ⟨k1, k2, k3⟩ := addBind_keeps n1.wf c1 hbx
  obtain ⟨w1, w2⟩ := k1.work (n1.chain hc)
  refine ⟨n1.trans w1, ?_⟩
  by_cases e : n = x
  · rw [if_pos e]
    obtain ⟨⟨v1, v2, v3⟩, v4⟩ := hx e
    refine ⟨?_, by rw [w2, n3, if_pos e]⟩
    rw [k3 e]
    have := c6 e v1 v2 v3
    rw [n2] at this
    have e2 : s1.reo = s.reo := by funext t; simp [BV.reo, n1.same.fuel]
    rw [e2] at this
    exact this
  · rw [if_neg e]
    exact ⟨(k2 e).trans n2, by rw [w2, n3, if_neg e]⟩

theorem copyL_other {p' : CondPath} (L : List (ScopeChain × Bind)) : ∀ s s', s.WF mod x ai → Chain s.frames mod x ai c p →
    s.current = c → (∀ e ∈ L, e.1 ≠ x) → L.foldlM (BV.copyNonblocking1 p') s = .ok s' →
    Work s s' mod x ai c ∧ s'.treeOf x = s.treeOf x ∧ s'.recAt c x = s.recAt c x := by
  induction L with
  | nil =>
    intro s s' hw hc hcur _ h
    simp only [List.foldlM_nil, py_pure, ok_inj] at h
    subst h
    exact ⟨.refl hw hc, rfl, rfl⟩
  | cons e L ih =>
    intro s s' hw hc hcur hne h
    simp only [List.foldlM_cons, bind_ok] at h
    obtain ⟨s1, h1, h⟩ := h
    obtain ⟨n, b⟩ := e
    have hn : n ≠ x := hne (n, b) (by simp)
    obtain ⟨w, hh⟩ := copy1_chain hw hc hcur (fun e => absurd e hn) h1
    rw [if_neg hn] at hh
    obtain ⟨w', t', r'⟩ := ih s1 s' w.wf (w.chain hc) (w.current.trans hcur) (fun e he => hne e (by simp [he])) h
    exact ⟨w.trans w', t'.trans hh.1, r'.trans hh.2⟩

theorem flat_none {d : Dict ScopeChain (List Bind)} (h : d.get? x = none) :
    ∀ e ∈ d.flatMap (fun e => e.2.map (fun b => (e.1, b))), e.1 ≠ x := by
  intro e he
  simp only [List.mem_flatMap, List.mem_map] at he
  obtain ⟨q, hq, b, hb, rfl⟩ := he
  intro e
  simp only [Dict.get?, Option.map_eq_none_iff, List.find?_eq_none, decide_eq_true_eq] at h
  exact h q hq e

theorem flat_some {d : Dict ScopeChain (List Bind)} {b : Bind} (hd : d.Nodup) (h : d.get? x = some [b]) :
    ∃ L1 L2, d.flatMap (fun e => e.2.map (fun b => (e.1, b))) = L1 ++ (x, b) :: L2 ∧ (∀ e ∈ L1, e.1 ≠ x) ∧ ∀ e ∈ L2, e.1 ≠ x := by
  induction d with
  | nil => simp [Dict.get?] at h
  | cons q d ih =>
    rw [Dict.get?_cons] at h
    simp only [Dict.Nodup, List.map_cons, List.nodup_cons] at hd
    split at h
    · rename_i e
      obtain ⟨k, bs⟩ := q
      simp only at e
      subst e
      cases h
      refine ⟨[], d.flatMap (fun e => e.2.map (fun b => (e.1, b))), by simp, by simp, ?_⟩
      refine flat_none ?_
      simp only [Dict.get?, Option.map_eq_none_iff, List.find?_eq_none, decide_eq_true_eq]
      intro q hq e
      exact hd.1 (List.mem_map.mpr ⟨q, hq, e⟩)
    · rename_i e
      obtain ⟨L1, L2, h1, h2, h3⟩ := ih hd.2 h
      refine ⟨q.2.map (fun b => (q.1, b)) ++ L1, L2, by simp [h1], ?_, h3⟩
      intro a ha
      rcases List.mem_append.mp ha with ha | ha
      · obtain ⟨b, _, rfl⟩ := List.mem_map.mp ha
        exact e
      · exact h2 a ha

/-- Copying the recorded assignments of the frame around into the new one. -/
theorem copy_chain {s : BV} {l : ScopeLabel} {q : ExPath} (hw : s.WF mod x ai) (hc0 : Chain s.frames mod x ai c p)
    (hc : Chain s.frames mod x ai (c ++ [l]) q)
    (hprev : ∀ f, s.frames.get? (c ++ [l]) = some f → f.previous = c) (hcur : s.current = c ++ [l]) (hrec : s.recAt (c ++ [l]) x = none)
    (h : s.copyNonblocking = .ok s') :
    Work s s' mod x ai (c ++ [l]) ∧
    (s.flatA mod).copy q (s.treeOf x, s.recAt c x) = .ok (s'.treeOf x, s'.recAt (c ++ [l]) x) := by
  obtain ⟨f, hf, hfo⟩ := hc.frame
  obtain ⟨pf, hpf, hpo⟩ := hc0.frame
  simp only [BV.copyNonblocking, hcur, frame_ok hf, ok_bind, hprev f hf, hc0.ne, if_false, frame_ok hpf, hpo.always, Bool.not_true,
    Bool.false_eq_true] at h
  have hrp : s.recAt c x = pf.recOf x := by simp [BV.recAt, hpf]
  rcases hpo.recd with hn | ⟨b, hn, hb⟩
  · have hr0 : s.recAt c x = none := by rw [hrp]; simp [Frame.recOf, hn]
    have fin : Work s s' mod x ai (c ++ [l]) ∧ s'.treeOf x = s.treeOf x ∧ s'.recAt (c ++ [l]) x = s.recAt (c ++ [l]) x := by
      split at h
      · simp only [ok_inj] at h
        subst h
        exact ⟨.refl hw hc, rfl, rfl⟩
      · simp only [bind_ok] at h
        obtain ⟨p', hp', h⟩ := h
        exact copyL_other _ s s' hw hc hcur (flat_none hn) h
    refine ⟨fin.1, ?_⟩
    rw [hr0, fin.2.1, fin.2.2, hrec]
    rfl
  · have hr0 : s.recAt c x = some b.tree := by rw [hrp]; simp [Frame.recOf, hn]
    obtain ⟨L1, L2, hL, h1, h2⟩ := flat_some hpo.nodup hn
    rw [hL] at h
    simp only [List.append_eq_nil_iff, reduceCtorEq, and_false, if_false, bind_ok] at h
    obtain ⟨p', hp', h⟩ := h
    simp only [List.foldlM_append, List.foldlM_cons, bind_ok] at h
    obtain ⟨s1, g1, s2, g2, g3⟩ := h
    obtain ⟨w1, t1, r1⟩ := copyL_other _ s s1 hw hc hcur h1 g1
    obtain ⟨w2, hh⟩ := copy1_chain w1.wf (w1.chain hc) (w1.current.trans hcur) (fun _ => hb) g2
    rw [if_pos rfl] at hh
    have w12 := w1.trans w2
    obtain ⟨w3, t3, r3⟩ := copyL_other _ s2 s' w12.wf (w12.chain hc) (w12.current.trans hcur) h2 g3
    refine ⟨w12.trans w3, ?_⟩
    simp only [TEnv.copy, hr0, TEnv.put, condflow_chain hc hw.flat hw.nore hp', ok_bind]
    have e2 : s1.reo = s.reo := by funext t; simp [BV.reo, w1.same.fuel]
    rw [t3, r3, hh.2, ← t1]
    have := hh.1
    rw [e2] at this
    show (do let T ← bindTree s.reo _ _ _; _) = _
    rw [this, ok_bind]

end

end Pyv
