import Verif.Props.GraphProps
import Verif.Props.MergeTotal
/-
  C82, the default mode: one node per signal.
-/
namespace Pyv

/-! ### Specification -/

/-- In graph `g`, node `n` stands for tree `t`, with one shared node per signal: a signal is the node named like it;
any other tree is a node with the tree's label, and the lines that leave this node lead to nodes that stand for the
operands, to each of them and to nothing else. -/
inductive Graph.Covers (g : Graph) : Str → DF → Prop
  | sig {x} : g.nodes.has x.tocode = true → Graph.Covers g x.tocode (.term x)
  | node {n t label col} : (∀ x, t ≠ .term x) → t.tolabel = .ok label → g.nodes.get? n = some (some label, col) →
      (target : Option ELabel × Colour × DF → Str) → (∀ o ∈ t.operands .black, g.edges.has (n, target o) = true) →
      (∀ o ∈ t.operands .black, Graph.Covers g (target o) o.2.2) →
      (shown : Str → Option ELabel × Colour × DF) → (∀ m, g.edges.has (n, m) = true → shown m ∈ t.operands .black) →
      (∀ m, g.edges.has (n, m) = true → Graph.Covers g m (shown m).2.2) → Graph.Covers g n t

/-- What earlier drawings leave: labels and outgoing lines only at nodes with a number below the counter. -/
structure Graph.Tidy (g : Graph) : Prop where
  labels : ∀ n l c, g.nodes.get? n = some (some l, c) → ∃ l' k, k < g.counter ∧ n = graphName l' k
  sources : ∀ a b, g.edges.has (a, b) = true → ∃ l k, k < g.counter ∧ a = graphName l k

/-! ### Proofs -/

inductive CoversIn (g : Graph) (lo hi : Nat) : Str → DF → Prop
  | sig {x} : g.nodes.has x.tocode = true → CoversIn g lo hi x.tocode (.term x)
  | node {n t label col l k} : (∀ x, t ≠ .term x) → t.tolabel = .ok label → g.nodes.get? n = some (some label, col) →
      lo ≤ k → k < hi → n = graphName l k →
      (target : Option ELabel × Colour × DF → Str) → (∀ o ∈ t.operands .black, g.edges.has (n, target o) = true) →
      (∀ o ∈ t.operands .black, CoversIn g lo hi (target o) o.2.2) →
      (shown : Str → Option ELabel × Colour × DF) → (∀ m, g.edges.has (n, m) = true → shown m ∈ t.operands .black) →
      (∀ m, g.edges.has (n, m) = true → CoversIn g lo hi m (shown m).2.2) → CoversIn g lo hi n t

theorem CoversIn.ofEx {g : Graph} {lo hi : Nat} {n : Str} {t : DF} {label : Str} {col : Option Colour} {l : Str} {k : Nat}
    (h1 : ∀ x, t ≠ .term x) (h2 : t.tolabel = .ok label) (h3 : g.nodes.get? n = some (some label, col))
    (h4 : lo ≤ k) (h5 : k < hi) (h6 : n = graphName l k)
    (h7 : ∀ o ∈ t.operands .black, ∃ m, g.edges.has (n, m) = true ∧ CoversIn g lo hi m o.2.2)
    (h8 : ∀ m, g.edges.has (n, m) = true → ∃ o ∈ t.operands .black, CoversIn g lo hi m o.2.2) : CoversIn g lo hi n t := by
  classical
  have e7 : ∀ o, ∃ m, o ∈ t.operands .black → g.edges.has (n, m) = true ∧ CoversIn g lo hi m o.2.2 := by
    intro o
    by_cases ho : o ∈ t.operands .black
    · obtain ⟨m, hm⟩ := h7 o ho; exact ⟨m, fun _ => hm⟩
    · exact ⟨[], fun h => (ho h).elim⟩
  have e8 : ∀ m, ∃ o : Option ELabel × Colour × DF, g.edges.has (n, m) = true → o ∈ t.operands .black ∧ CoversIn g lo hi m o.2.2 := by
    intro m
    by_cases hm : g.edges.has (n, m) = true
    · obtain ⟨o, ho⟩ := h8 m hm; exact ⟨o, fun _ => ho⟩
    · exact ⟨(Option.none, .black, .none), fun h => (hm h).elim⟩
  choose f hf using e7
  choose s hs using e8
  exact .node h1 h2 h3 h4 h5 h6 f (fun o ho => (hf o ho).1) (fun o ho => (hf o ho).2) s (fun m hm => (hs m hm).1) (fun m hm => (hs m hm).2)

/-- Induction over the operands. -/
theorem DF.opInd {P : DF → Prop} (h : ∀ t, (∀ o ∈ t.operands .black, P o.2.2) → P t) (t : DF) : P t := by
  induction t using DF.ind with
  | op o ns ih =>
    refine h _ ?_
    intro x hx
    obtain ⟨n, hn, rfl⟩ := List.mem_map.mp hx
    exact ih n hn
  | concat ns ih =>
    refine h _ ?_
    intro x hx
    obtain ⟨n, hn, rfl⟩ := List.mem_map.mp hx
    exact ih n hn
  | psel a b c h1 h2 h3 => refine h _ ?_; simp [DF.operands, h1, h2, h3]
  | ptr a b h1 h2 => refine h _ ?_; simp [DF.operands, h1, h2]
  | branch a b c h1 h2 h3 => refine h _ ?_; simp [DF.operands, h1, h2, h3]
  | delay a h1 => refine h _ ?_; simp [DF.operands, h1]
  | none => exact h _ (by simp [DF.operands])
  | term _ => exact h _ (by simp [DF.operands])
  | intc _ => exact h _ (by simp [DF.operands])
  | fltc _ => exact h _ (by simp [DF.operands])
  | strc _ => exact h _ (by simp [DF.operands])
  | ev _ _ _ _ => exact h _ (by simp [DF.operands])
  | undef _ => exact h _ (by simp [DF.operands])
  | hiz _ => exact h _ (by simp [DF.operands])
  | sys _ _ => exact h _ (by simp [DF.operands])

theorem CoversIn.covers {g : Graph} {lo hi} (t : DF) : ∀ {n}, CoversIn g lo hi n t → g.Covers n t := by
  induction t using DF.opInd with
  | h t ih =>
    intro n h
    cases h with
    | sig h => exact .sig h
    | node h1 h2 h3 h4 h5 h6 f f1 f2 s s1 s2 =>
      exact .node h1 h2 h3 f f1 (fun o ho => ih o ho (f2 o ho)) s s1 (fun m hm => ih _ (s1 m hm) (s2 m hm))

/-- Nothing that was in `g` is lost in `g'`. -/
structure Keeps (g g' : Graph) : Prop where
  counter : g.counter ≤ g'.counter
  nodes : ∀ n, g.nodes.has n = true → g'.nodes.has n = true
  labels : ∀ n l c, g.nodes.get? n = some (some l, c) → ∃ c', g'.nodes.get? n = some (some l, c')
  edges : ∀ a b, g.edges.has (a, b) = true → g'.edges.has (a, b) = true

theorem Keeps.refl (g : Graph) : Keeps g g := ⟨le_refl _, fun _ h => h, fun _ _ c h => ⟨c, h⟩, fun _ _ h => h⟩

theorem Keeps.trans {g g1 g2 : Graph} (h : Keeps g g1) (h' : Keeps g1 g2) : Keeps g g2 :=
  ⟨le_trans h.counter h'.counter, fun n hn => h'.nodes n (h.nodes n hn),
    fun n l c hn => let ⟨c', e⟩ := h.labels n l c hn; h'.labels n l c' e, fun a b hn => h'.edges a b (h.edges a b hn)⟩

theorem CoversIn.mono {g g' : Graph} {lo hi lo' hi'} (k : Keeps g g') (hlo : lo' ≤ lo) (hhi : hi ≤ hi')
    (he : ∀ l k m, lo ≤ k → k < hi → g'.edges.has (graphName l k, m) = true → g.edges.has (graphName l k, m) = true) (t : DF) :
    ∀ {n}, CoversIn g lo hi n t → CoversIn g' lo' hi' n t := by
  induction t using DF.opInd with
  | h t ih =>
    intro n h
    cases h with
    | sig h => exact .sig (k.nodes _ h)
    | node h1 h2 h3 h4 h5 h6 f f1 f2 s s1 s2 =>
      obtain ⟨c', hc'⟩ := k.labels _ _ _ h3
      have back : ∀ m, g'.edges.has (n, m) = true → g.edges.has (n, m) = true := by
        intro m hm
        rw [h6] at hm ⊢; exact he _ _ _ h4 h5 hm
      exact .node h1 h2 hc' (by omega) (by omega) h6 f (fun o ho => k.edges _ _ (f1 o ho)) (fun o ho => ih o ho (f2 o ho))
        s (fun m hm => s1 m (back m hm)) (fun m hm => ih _ (s1 m (back m hm)) (s2 m (back m hm)))

/-- From `g` to `g'` the operands `os` were drawn below `parent`, with shared signals. -/
structure DrawnS (g g' : Graph) (parent : Str) (os : List (Option ELabel × Colour × DF)) : Prop where
  tidy : g'.Tidy
  keeps : Keeps g g'
  all : ∀ o ∈ os, ∃ m, g'.edges.has (parent, m) = true ∧ CoversIn g' g.counter g'.counter m o.2.2
  only : ∀ a b, g'.edges.has (a, b) = true → g.edges.has (a, b) = true ∨
    (a = parent ∧ ∃ o ∈ os, CoversIn g' g.counter g'.counter b o.2.2) ∨ ∃ l k, g.counter ≤ k ∧ k < g'.counter ∧ a = graphName l k

theorem DrawnS.nil {g : Graph} (w : g.Tidy) (parent) : DrawnS g g parent [] :=
  ⟨w, Keeps.refl g, by simp, fun a b h => .inl h⟩

theorem DrawnS.append {g g1 g2 : Graph} {parent os os' lp kp} (hp : parent = graphName lp kp) (hk : kp < g.counter)
    (d : DrawnS g g1 parent os) (d' : DrawnS g1 g2 parent os') : DrawnS g g2 parent (os ++ os') := by
  have up : ∀ t n, CoversIn g1 g.counter g1.counter n t → CoversIn g2 g.counter g2.counter n t := by
    intro t n h
    refine h.mono d'.keeps (le_refl _) d'.keeps.counter ?_ t
    intro l k m h1 h2 hm
    rcases d'.only _ _ hm with h3 | ⟨h3, _⟩ | ⟨l', k', h4, h5, h6⟩
    · exact h3
    · have := graphName_inj (h3.trans hp); omega
    · have := graphName_inj h6; omega
  have up' : ∀ t n, CoversIn g2 g1.counter g2.counter n t → CoversIn g2 g.counter g2.counter n t := by
    intro t n h
    exact h.mono (Keeps.refl _) d.keeps.counter (le_refl _) (fun _ _ _ _ _ h => h) t
  refine ⟨d'.tidy, d.keeps.trans d'.keeps, ?_, ?_⟩
  · intro o ho
    rcases List.mem_append.mp ho with ho | ho
    · obtain ⟨m, a, b⟩ := d.all o ho
      exact ⟨m, d'.keeps.edges _ _ a, up _ _ b⟩
    · obtain ⟨m, a, b⟩ := d'.all o ho
      exact ⟨m, a, up' _ _ b⟩
  · intro a b h
    rcases d'.only a b h with h | ⟨h1, o, ho, h2⟩ | ⟨l, k, h1, h2, h3⟩
    · rcases d.only a b h with h | ⟨h1, o, ho, h2⟩ | ⟨l, k, h1, h2, h3⟩
      · exact .inl h
      · exact .inr (.inl ⟨h1, o, List.mem_append_left _ ho, up _ _ h2⟩)
      · exact .inr (.inr ⟨l, k, h1, lt_of_lt_of_le h2 d'.keeps.counter, h3⟩)
    · exact .inr (.inl ⟨h1, o, List.mem_append_right _ ho, up' _ _ h2⟩)
    · exact .inr (.inr ⟨l, k, le_trans d.keeps.counter h1, h2, h3⟩)

/-! Single steps. -/

theorem node_get (g : Graph) (a : Str) (lab col) (n : Str) :
    (g.node a lab col).nodes.get? n = if a = n then
      some (lab.orElse (fun _ => ((g.nodes.get? a).getD (none, none)).1), col.orElse (fun _ => ((g.nodes.get? a).getD (none, none)).2))
      else g.nodes.get? n := by
  unfold Graph.node
  exact Dict.get?_set _ _ _ _

theorem has_of_get {κ α : Type} [DecidableEq κ] {d : Dict κ α} {k : κ} : d.has k = true ↔ ∃ v, d.get? k = some v := by
  rw [Dict.has_eq, Option.isSome_iff_exists]

/-- Adding a node without a label keeps everything and gives no label. -/
theorem node_none (g : Graph) (a : Str) (col) : Keeps g (g.node a none col) ∧ (g.node a none col).nodes.has a = true ∧
    ∀ n l c, (g.node a none col).nodes.get? n = some (some l, c) → ∃ c', g.nodes.get? n = some (some l, c') := by
  refine ⟨⟨le_refl _, ?_, ?_, fun _ _ h => h⟩, ?_, ?_⟩
  · intro n hn
    rw [has_of_get] at hn ⊢
    rw [node_get]
    split
    · exact ⟨_, rfl⟩
    · exact hn
  · intro n l c hn
    rw [node_get]
    split
    · rename_i e
      subst e
      rw [hn]; exact ⟨_, rfl⟩
    · exact ⟨c, hn⟩
  · rw [has_of_get, node_get, if_pos rfl]; exact ⟨_, rfl⟩
  · intro n l c hn
    rw [node_get] at hn
    split at hn
    · rename_i e
      subst e
      cases hg : g.nodes.get? a with
      | none => rw [hg] at hn; simp at hn
      | some v =>
        rw [hg] at hn
        simp only [Option.getD_some, Option.orElse_none, Option.some.injEq, Prod.mk.injEq] at hn
        exact ⟨v.2, by rw [← hn.1]⟩
    · exact ⟨c, hn⟩

theorem edge_has (c : GCfg) (g : Graph) (a b : Str) (col el) (x y : Str) :
    (g.addEdge c a b col el).edges.has (x, y) = true ↔ (x = a ∧ y = b) ∨ g.edges.has (x, y) = true := by
  unfold Graph.addEdge
  simp only [has_of_get, Dict.get?_set, Prod.mk.injEq]
  constructor
  · rintro ⟨v, hv⟩
    split at hv
    · rename_i e; exact .inl ⟨e.1.symm, e.2.symm⟩
    · exact .inr ⟨v, hv⟩
  · rintro (⟨rfl, rfl⟩ | ⟨v, hv⟩)
    · simp
    · split
      · exact ⟨_, rfl⟩
      · exact ⟨v, hv⟩

theorem edge_keeps (c : GCfg) (g : Graph) (a b : Str) (col el) : Keeps g (g.addEdge c a b col el) ∧
    (g.addEdge c a b col el).nodes.has b = true ∧
    ∀ n l c', (g.addEdge c a b col el).nodes.get? n = some (some l, c') → ∃ c'', g.nodes.get? n = some (some l, c'') := by
  obtain ⟨k1, h1, l1⟩ := node_none g a none
  obtain ⟨k2, h2, l2⟩ := node_none (g.node a none none) b none
  have k := k1.trans k2
  refine ⟨⟨k.counter, k.nodes, k.labels, ?_⟩, h2, ?_⟩
  · intro x y h; rw [edge_has]; exact .inr h
  · intro n l c' h
    obtain ⟨c1, e1⟩ := l2 n l c' h
    exact l1 n l c1 e1

/-- Drawing a signal. -/
theorem shared_drawn {c : GCfg} {g g' : Graph} {x : ScopeChain} {parent lp kp col el} (w : g.Tidy) (hp : parent = graphName lp kp)
    (hk : kp < g.counter) (h : g.addShared c (.term x) parent col el = .ok g') : DrawnS g g' parent [(el, col, .term x)] := by
  have h : (g.addNode c x.tocode none col).addEdge c parent x.tocode col el = g' := by
    simpa [Graph.addShared, DF.tolabel, DF.tocode, bind, Except.bind] using h
  subst h
  obtain ⟨k1, h1, l1⟩ := node_none g x.tocode (some (c.paint col))
  obtain ⟨k2, h2, l2⟩ := edge_keeps c (g.addNode c x.tocode none col) parent x.tocode col el
  have cov : CoversIn ((g.addNode c x.tocode none col).addEdge c parent x.tocode col el) g.counter
      ((g.addNode c x.tocode none col).addEdge c parent x.tocode col el).counter x.tocode (.term x) := .sig h2
  refine ⟨⟨?_, ?_⟩, k1.trans k2, ?_, ?_⟩
  · intro n l c' h
    obtain ⟨c1, e1⟩ := l2 n l c' h
    obtain ⟨c2, e2⟩ := l1 n l c1 e1
    exact w.labels n l c2 e2
  · intro a b h
    rw [edge_has] at h
    rcases h with ⟨rfl, rfl⟩ | h
    · exact ⟨lp, kp, hk, hp⟩
    · exact w.sources a b h
  · intro o ho
    simp only [List.mem_singleton] at ho
    subst ho
    exact ⟨x.tocode, by rw [edge_has]; exact .inl ⟨rfl, rfl⟩, cov⟩
  · intro a b h
    rw [edge_has] at h
    rcases h with ⟨rfl, rfl⟩ | h
    · exact .inr (.inl ⟨rfl, _, List.mem_singleton.mpr rfl, cov⟩)
    · exact .inl h

/-- Drawing a node that is not a signal, and its operands below it. -/
theorem DrawnS.node {c : GCfg} {g g1 g' : Graph} {t : DF} {parent name lp kp col el} {ops} (w : g.Tidy)
    (hp : parent = graphName lp kp) (hk : kp < g.counter) (hnt : ∀ x, t ≠ .term x)
    (ha : g.addRenamed c t parent col el = .ok (name, g1))
    (hops : ∀ u, (∃ o ∈ ops, o.2.2 = u) ↔ ∃ o ∈ t.operands .black, o.2.2 = u)
    (d : ∀ l k, g1.Tidy → name = graphName l k → k < g1.counter → DrawnS g1 g' name ops) :
    DrawnS g g' parent [(el, col, t)] := by
  cases hl : t.tolabel with
  | error e => simp [Graph.addRenamed, hl, bind, Except.bind] at ha
  | ok label =>
    have ha' := ha
    simp only [Graph.addRenamed, hl, bind, Except.bind, Graph.rename, Except.ok.injEq, Prod.mk.injEq] at ha'
    obtain ⟨hn, hg⟩ := ha'
    have hn : name = graphName label g.counter := hn.symm
    obtain ⟨k2, h2, l2⟩ := edge_keeps c (({ g with counter := g.counter + 1 } : Graph).addNode c name (some label) col) parent name col el
    have hcnt : g1.counter = g.counter + 1 := by rw [← hg]; rfl
    have hold : ∀ n, n ≠ name → Dict.get? (({ g with counter := g.counter + 1 } : Graph).addNode c name (some label) col).nodes n = g.nodes.get? n := by
      intro n hn
      rw [Graph.addNode, node_get, if_neg (Ne.symm hn)]
    have hnew : Dict.get? (({ g with counter := g.counter + 1 } : Graph).addNode c name (some label) col).nodes name = some (some label, some (c.paint col)) := by
      rw [Graph.addNode, node_get, if_pos rfl]; rfl
    rw [hn] at hold hnew k2 h2 l2
    have hg' := hg
    rw [show label ++ renameMark ++ natStr g.counter = graphName label g.counter from rfl] at hg'
    rw [hg'] at k2 h2 l2
    have nolab : ∀ l c', g.nodes.get? (graphName label g.counter) ≠ some (some l, c') := by
      intro l c' e
      obtain ⟨l', k', h, e'⟩ := w.labels _ _ _ e
      have := graphName_inj e'; omega
    have kg : Keeps g g1 := by
      refine ⟨by omega, ?_, ?_, ?_⟩
      · intro n h
        apply k2.nodes
        rw [has_of_get] at h ⊢
        by_cases e : n = graphName label g.counter
        · rw [e, hnew]; exact ⟨_, rfl⟩
        · rw [hold n e]; exact h
      · intro n l c' h
        refine k2.labels n l c' ?_
        rw [hold n (by intro e; rw [e] at h; exact nolab _ _ h)]; exact h
      · intro a b h; exact k2.edges a b h
    have hedge : ∀ a b, g1.edges.has (a, b) = true ↔ (a = parent ∧ b = name) ∨ g.edges.has (a, b) = true := by
      intro a b
      rw [← hg', edge_has, hn]; rfl
    have t1 : g1.Tidy := by
      refine ⟨?_, ?_⟩
      · intro n l c' h
        obtain ⟨c1, e1⟩ := l2 n l c' h
        by_cases e : n = graphName label g.counter
        · exact ⟨label, g.counter, by omega, e⟩
        · rw [hold n e] at e1
          obtain ⟨l', k', h, e'⟩ := w.labels _ _ _ e1
          exact ⟨l', k', by omega, e'⟩
      · intro a b h
        rcases (hedge a b).mp h with ⟨rfl, rfl⟩ | h
        · exact ⟨lp, kp, by omega, hp⟩
        · obtain ⟨l', k', h, e'⟩ := w.sources _ _ h
          exact ⟨l', k', by omega, e'⟩
    have d := d label g.counter t1 hn (by omega)
    have up : ∀ t n, CoversIn g' g1.counter g'.counter n t → CoversIn g' g.counter g'.counter n t := by
      intro t n h
      exact h.mono (Keeps.refl _) (by omega) (le_refl _) (fun _ _ _ _ _ h => h) t
    obtain ⟨c1, hc1⟩ : ∃ c1, g1.nodes.get? name = some (some label, c1) := by
      rw [hn]; exact k2.labels _ _ _ hnew
    obtain ⟨c2, hc2⟩ := d.keeps.labels _ _ _ hc1
    have hcc := d.keeps.counter
    have cov : CoversIn g' g.counter g'.counter name t := by
      refine CoversIn.ofEx hnt hl hc2 (le_refl _) (by omega) hn ?_ ?_
      · intro o ho
        obtain ⟨o', ho', e⟩ := (hops o.2.2).mpr ⟨o, ho, rfl⟩
        obtain ⟨m, h1, h2⟩ := d.all o' ho'
        rw [e] at h2
        exact ⟨m, h1, up _ _ h2⟩
      · intro m hm
        rcases d.only _ _ hm with h | ⟨-, o, ho, h⟩ | ⟨l, k, h1, _, h3⟩
        · rcases (hedge _ _).mp h with ⟨e, -⟩ | h
          · have := graphName_inj (hn.symm.trans (e.trans hp)); omega
          · obtain ⟨l, k, h1, h2⟩ := w.sources _ _ h
            have := graphName_inj (hn.symm.trans h2); omega
        · obtain ⟨o', ho', e⟩ := (hops o.2.2).mp ⟨o, ho, rfl⟩
          exact ⟨o', ho', by rw [e]; exact up _ _ h⟩
        · have := graphName_inj (hn.symm.trans h3); omega
    refine ⟨d.tidy, kg.trans d.keeps, ?_, ?_⟩
    · intro o ho
      simp only [List.mem_singleton] at ho
      subst ho
      exact ⟨name, d.keeps.edges _ _ ((hedge _ _).mpr (.inl ⟨rfl, rfl⟩)), cov⟩
    · intro a b h
      rcases d.only a b h with h | ⟨h1, -⟩ | ⟨l, k, h1, h2, h3⟩
      · rcases (hedge _ _).mp h with ⟨rfl, rfl⟩ | h
        · exact .inr (.inl ⟨rfl, _, List.mem_singleton.mpr rfl, cov⟩)
        · exact .inl h
      · exact .inr (.inr ⟨label, g.counter, le_refl _, by omega, h1.trans hn⟩)
      · exact .inr (.inr ⟨l, k, by omega, h2, h3⟩)

theorem leaf_drawnS {c : GCfg} {g g' : Graph} {t : DF} {parent lp kp col el} (w : g.Tidy) (hp : parent = graphName lp kp)
    (hk : kp < g.counter) (hnt : ∀ x, t ≠ .term x) (ht : t.operands .black = [])
    (h : (do let r ← g.addRenamed c t parent col el; .ok r.2 : Py Graph) = .ok g') : DrawnS g g' parent [(el, col, t)] := by
  obtain ⟨r, h1, h2⟩ := bind_ok.mp h
  cases h2
  refine DrawnS.node w hp hk hnt (name := r.1) (g1 := r.2) h1 (ops := []) (by simp [ht]) ?_
  intro _ _ t1 _ _
  exact DrawnS.nil t1 _

theorem visit_drawnS {c : GCfg} (hi : c.identical = false) (t : DF) : ∀ {g g' : Graph} {parent lp kp col el}, t.whole → g.Tidy →
    parent = graphName lp kp → kp < g.counter → Graph.visit c g parent col el t = .ok g' → DrawnS g g' parent [(el, col, t)] := by
  have list : ∀ (ns : List DF), (∀ n ∈ ns, ∀ {g g' : Graph} {parent lp kp col el}, n.whole → g.Tidy →
      parent = graphName lp kp → kp < g.counter → Graph.visit c g parent col el n = .ok g' → DrawnS g g' parent [(el, col, n)]) →
      ∀ {g g' : Graph} {parent lp kp col}, DF.wholeList ns → g.Tidy → parent = graphName lp kp → kp < g.counter →
      Graph.visitList c g parent col none ns = .ok g' → DrawnS g g' parent (ns.map (fun n => (none, col, n))) := by
    intro ns
    induction ns with
    | nil => intro _ g g' parent lp kp col _ w hp hk h; cases h; exact DrawnS.nil w _
    | cons n ns ih =>
      intro hn g g' parent lp kp col hw w hp hk h
      rw [Graph.visitList] at h
      obtain ⟨g1, h1, h2⟩ := bind_ok.mp h
      have d := hn n (by simp) hw.1 w hp hk h1
      have := d.keeps.counter
      exact DrawnS.append hp hk d (ih (fun m hm => hn m (by simp [hm])) hw.2 d.tidy hp (by omega) h2)
  induction t using DF.ind with
  | none => intro g g' parent lp kp col el hw; exact hw.elim
  | sys s ns _ => intro g g' parent lp kp col el hw; exact hw.elim
  | term n =>
    intro g g' parent lp kp col el _ w hp hk h
    rw [Graph.visit, hi, if_neg (by simp)] at h
    exact shared_drawn w hp hk h
  | intc s => intro g g' parent lp kp col el _ w hp hk h; rw [Graph.visit] at h; exact leaf_drawnS w hp hk (by simp) rfl h
  | fltc s => intro g g' parent lp kp col el _ w hp hk h; rw [Graph.visit] at h; exact leaf_drawnS w hp hk (by simp) rfl h
  | strc s => intro g g' parent lp kp col el _ w hp hk h; rw [Graph.visit] at h; exact leaf_drawnS w hp hk (by simp) rfl h
  | ev v k a b => intro g g' parent lp kp col el _ w hp hk h; rw [Graph.visit] at h; exact leaf_drawnS w hp hk (by simp) rfl h
  | undef k => intro g g' parent lp kp col el _ w hp hk h; rw [Graph.visit] at h; exact leaf_drawnS w hp hk (by simp) rfl h
  | hiz k => intro g g' parent lp kp col el _ w hp hk h; rw [Graph.visit] at h; exact leaf_drawnS w hp hk (by simp) rfl h
  | op o ns ih =>
    intro g g' parent lp kp col el hw w hp hk h
    rw [Graph.visit] at h
    obtain ⟨r, h1, h2⟩ := bind_ok.mp h
    refine DrawnS.node w hp hk (by simp) (name := r.1) (g1 := r.2) h1 (ops := ns.map (fun n => (none, col, n))) ?_ ?_
    · intro u; simp [DF.operands]
    · intro l k w1 hp1 hk1; exact list ns (fun n hn => ih n hn) hw w1 hp1 hk1 h2
  | concat ns ih =>
    intro g g' parent lp kp col el hw w hp hk h
    rw [Graph.visit] at h
    obtain ⟨r, h1, h2⟩ := bind_ok.mp h
    refine DrawnS.node w hp hk (by simp) (name := r.1) (g1 := r.2) h1 (ops := ns.map (fun n => (none, col, n))) ?_ ?_
    · intro u; simp [DF.operands]
    · intro l k w1 hp1 hk1; exact list ns (fun n hn => ih n hn) hw w1 hp1 hk1 h2
  | psel v m l hv hm hl =>
    intro g g' parent lp kp col el hw w hp hk h
    rw [Graph.visit] at h
    obtain ⟨r, h1, h⟩ := bind_ok.mp h
    obtain ⟨g1, h2, h⟩ := bind_ok.mp h
    obtain ⟨g2, h3, h⟩ := bind_ok.mp h
    refine DrawnS.node w hp hk (by simp) (name := r.1) (g1 := r.2) h1
      (ops := [(some .var, col, v)] ++ ([(some .msb, .orange, m)] ++ [(some .lsb, .orange, l)])) ?_ ?_
    · intro u; simp [DF.operands]
    · intro l k w1 hp1 hk1
      have d1 := hv hw.1 w1 hp1 hk1 h2
      have c1 := d1.keeps.counter
      have d2 := hm hw.2.1 d1.tidy hp1 (by omega) h3
      have c2 := d2.keeps.counter
      have d3 := hl hw.2.2 d2.tidy hp1 (by omega) h
      exact DrawnS.append hp1 hk1 d1 (DrawnS.append hp1 (by omega) d2 d3)
  | ptr v m hv hm =>
    intro g g' parent lp kp col el hw w hp hk h
    rw [Graph.visit] at h
    obtain ⟨r, h1, h⟩ := bind_ok.mp h
    obtain ⟨g1, h2, h⟩ := bind_ok.mp h
    refine DrawnS.node w hp hk (by simp) (name := r.1) (g1 := r.2) h1
      (ops := [(some .var, col, v)] ++ [(some .ptr, .orange, m)]) ?_ ?_
    · intro u; simp [DF.operands]
    · intro l k w1 hp1 hk1
      have d1 := hv hw.1 w1 hp1 hk1 h2
      have c1 := d1.keeps.counter
      have d2 := hm hw.2 d1.tidy hp1 (by omega) h
      exact DrawnS.append hp1 hk1 d1 d2
  | branch v m l hv hm hl =>
    intro g g' parent lp kp col el hw w hp hk h
    rw [Graph.visit] at h
    obtain ⟨r, h1, h⟩ := bind_ok.mp h
    obtain ⟨g1, h2, h⟩ := bind_ok.mp h
    obtain ⟨g2, h3, h⟩ := bind_ok.mp h
    refine DrawnS.node w hp hk (by simp) (name := r.1) (g1 := r.2) h1
      (ops := [(some .cond, .blue, v)] ++ ([(some .tru, .green, m)] ++ [(some .fals, .red, l)])) ?_ ?_
    · intro u; simp [DF.operands]
    · intro l k w1 hp1 hk1
      have d1 := hv hw.1 w1 hp1 hk1 h2
      have c1 := d1.keeps.counter
      have d2 := hm hw.2.1 d1.tidy hp1 (by omega) h3
      have c2 := d2.keeps.counter
      have d3 := hl hw.2.2 d2.tidy hp1 (by omega) h
      exact DrawnS.append hp1 hk1 d1 (DrawnS.append hp1 (by omega) d2 d3)
  | delay n hn =>
    intro g g' parent lp kp col el hw w hp hk h
    rw [Graph.visit] at h
    obtain ⟨r, h1, h2⟩ := bind_ok.mp h
    refine DrawnS.node w hp hk (by simp) (name := r.1) (g1 := r.2) h1 (ops := [(none, col, n)]) ?_ ?_
    · intro u; simp [DF.operands]
    · intro l k w1 hp1 hk1; exact hn hw w1 hp1 hk1 h2

theorem mem_terms_operands {x : ScopeChain} {t : DF} (hw : t.whole) (hx : x ∈ t.terms) :
    t = .term x ∨ ∃ o ∈ t.operands .black, x ∈ o.2.2.terms ∧ o.2.2.whole := by
  have wl : ∀ {ns : List DF}, DF.wholeList ns → ∀ n ∈ ns, n.whole := by
    intro ns
    induction ns with
    | nil => simp
    | cons a ns ih =>
      intro h n hn
      rcases List.mem_cons.mp hn with rfl | hn
      · exact h.1
      · exact ih h.2 n hn
  cases t with
  | none => simp [DF.terms] at hx
  | term n => simp only [DF.terms, List.mem_singleton] at hx; left; rw [hx]
  | intc _ => simp [DF.terms] at hx
  | fltc _ => simp [DF.terms] at hx
  | strc _ => simp [DF.terms] at hx
  | ev _ _ _ _ => simp [DF.terms] at hx
  | undef _ => simp [DF.terms] at hx
  | hiz _ => simp [DF.terms] at hx
  | sys _ _ => exact hw.elim
  | op o ns =>
    right
    rw [DF.terms, DF.mem_termsList] at hx
    obtain ⟨n, hn, hx⟩ := hx
    exact ⟨(Option.none, .black, n), by simp [DF.operands, hn], hx, wl hw n hn⟩
  | concat ns =>
    right
    rw [DF.terms, DF.mem_termsList] at hx
    obtain ⟨n, hn, hx⟩ := hx
    exact ⟨(Option.none, .black, n), by simp [DF.operands, hn], hx, wl hw n hn⟩
  | psel v m l =>
    right
    obtain ⟨w1, w2, w3⟩ := hw
    simp only [DF.terms, List.mem_append] at hx
    simp only [DF.operands, List.mem_cons, List.not_mem_nil, or_false, exists_eq_or_imp, exists_eq_left]
    tauto
  | ptr v m =>
    right
    obtain ⟨w1, w2⟩ := hw
    simp only [DF.terms, List.mem_append] at hx
    simp only [DF.operands, List.mem_cons, List.not_mem_nil, or_false, exists_eq_or_imp, exists_eq_left]
    tauto
  | branch v m l =>
    right
    obtain ⟨w1, w2, w3⟩ := hw
    simp only [DF.terms, List.mem_append] at hx
    simp only [DF.operands, List.mem_cons, List.not_mem_nil, or_false, exists_eq_or_imp, exists_eq_left]
    tauto
  | delay n => right; exact ⟨(Option.none, .black, n), by simp [DF.operands], hx, hw⟩

theorem Graph.Covers.signals {g : Graph} (t : DF) : ∀ {n}, t.whole → g.Covers n t → ∀ x ∈ t.terms, g.nodes.has x.tocode = true := by
  induction t using DF.opInd with
  | h t ih =>
    intro n hw h x hx
    rcases mem_terms_operands hw hx with rfl | ⟨o, ho, hx', hw'⟩
    · cases h with
      | sig h => exact h
      | node h1 => exact (h1 x rfl).elim
    · cases h with
      | sig h => simp [DF.operands] at ho
      | node h1 h2 h3 f f1 f2 => exact ih o ho hw' (f2 o ho) x hx'

/-- **C82, default mode** (`generate(signal)`): whatever was drawn before, nothing is lost; the signal gets a new node
showing its name, and every line that leaves it leads to the one node that stands for the tree; there is a node for
every signal of the tree. -/
theorem C82_graph_covers_tree {S : MergeEnv} {opt fuel wc} {g g' : Graph} {signal n} {o : GOpts} (hi : o.identical = false)
    (w : g.Tidy) (h : S.generateGraph opt fuel wc g signal n o = .ok g') :
    ∃ t root col top, S.graphTree opt fuel n o = .ok t ∧ g'.nodes.get? root = some (some signal, col) ∧
      (∀ m, g'.edges.has (root, m) = true → g'.Covers m t) ∧ g'.edges.has (root, top) = true ∧ g'.Covers top t ∧
      (∀ x ∈ t.terms, g'.nodes.has x.tocode = true) ∧
      (∀ m, g.nodes.has m = true → g'.nodes.has m = true) ∧ (∀ a b, g.edges.has (a, b) = true → g'.edges.has (a, b) = true) ∧
      (∀ b, g.edges.has (root, b) = false) ∧ g'.Tidy := by
  unfold MergeEnv.generateGraph at h
  obtain ⟨t, ht, h⟩ := bind_ok.mp h
  rw [hi] at h
  set c : GCfg := ⟨false, wc⟩ with hc
  set root := graphName signal g.counter with hroot
  have hold : ∀ n, n ≠ root → ((g.rename signal).2.addNode c root (some signal) .black).nodes.get? n = g.nodes.get? n := by
    intro n hn
    rw [Graph.addNode, node_get, if_neg (Ne.symm hn)]; rfl
  have hnew : ((g.rename signal).2.addNode c root (some signal) .black).nodes.get? root = some (some signal, some (c.paint .black)) := by
    rw [Graph.addNode, node_get, if_pos rfl]; rfl
  have w1 : ((g.rename signal).2.addNode c root (some signal) .black).Tidy := by
    refine ⟨?_, ?_⟩
    · intro n l c' h
      by_cases e : n = root
      · exact ⟨signal, g.counter, Nat.lt_succ_self _, e⟩
      · rw [hold n e] at h
        obtain ⟨l', k', h, e'⟩ := w.labels _ _ _ h
        exact ⟨l', k', Nat.lt_succ_of_lt h, e'⟩
    · intro a b h
      obtain ⟨l', k', h, e'⟩ := w.sources a b h
      exact ⟨l', k', Nat.lt_succ_of_lt h, e'⟩
  have d := visit_drawnS (c := c) rfl t (graphTree_whole ht) w1 hroot (Nat.lt_succ_self g.counter) h
  obtain ⟨top, h1, h2⟩ := d.all _ (List.mem_singleton.mpr rfl)
  obtain ⟨c2, hc2⟩ := d.keeps.labels _ _ _ hnew
  have noroot : ∀ b, g.edges.has (root, b) = false := by
    intro b
    by_contra hb
    rw [Bool.not_eq_false] at hb
    obtain ⟨l, k, h, e⟩ := w.sources _ _ hb
    have := graphName_inj (hroot.symm.trans e); omega
  refine ⟨t, root, c2, top, ht, hc2, ?_, h1, h2.covers, ?_, ?_, ?_, noroot, d.tidy⟩
  · intro m hm
    rcases d.only _ _ hm with h | ⟨-, o, ho, h⟩ | ⟨l, k, h1, _, h3⟩
    · exact absurd (show g.edges.has (root, m) = true from h) (by rw [noroot m]; simp)
    · rw [List.mem_singleton] at ho
      subst ho; exact h.covers
    · have := graphName_inj (hroot.symm.trans h3)
      have h1 : g.counter + 1 ≤ k := h1
      omega
  · exact Graph.Covers.signals t (graphTree_whole ht) h2.covers
  · intro m hm
    apply d.keeps.nodes
    rw [has_of_get] at hm ⊢
    by_cases e : m = root
    · rw [e, hnew]; exact ⟨_, rfl⟩
    · rw [hold m e]; exact hm
  · intro a b hab; exact d.keeps.edges a b hab

theorem emptyGraph_tidy : emptyGraph.Tidy :=
  ⟨by intro n l c h; simp [emptyGraph, Dict.get?_nil] at h, by intro a b h; simp [emptyGraph, Dict.has] at h⟩

/-! ### What the default mode does not show -/

/-- The graph of a tree drawn below a node `y`. -/
def drawBelow (c : GCfg) (t : DF) : Py Graph :=
  Graph.visit c (({ emptyGraph with counter := 1 } : Graph).addNode c (graphName ['y'] 0) (some ['y']) .black) (graphName ['y'] 0) .black none t

/-- A signal `a`. -/
def c82a : DF := .term [⟨['t'], .module, none⟩, ⟨['a'], .signal, none⟩]
/-- A signal `c`. -/
def c82c : DF := .term [⟨['t'], .module, none⟩, ⟨['c'], .signal, none⟩]

/-- Signal `a_b` of module `t`. -/
def c82a_b : DF := .term [⟨['t'], .module, none⟩, ⟨['a', '_', 'b'], .signal, none⟩]
/-- Signal `b` of instance `a` of module `t`. -/
def c82ab : DF := .term [⟨['t'], .module, none⟩, ⟨['a'], .module, none⟩, ⟨['b'], .signal, none⟩]

/-- **C82 fails in the default mode**: an operand that occurs twice is drawn once, so `{a, a}` and `{a}` have the same
graph, and of the two lines of `c ? a : a` only the one labelled FALSE is left; and two signals whose names read the
same when joined by `_` (signal `a_b` of `t`, signal `b` of instance `a` of `t`) are drawn as one node. -/
theorem C82_default_merges :
    drawBelow ⟨false, true⟩ (.concat [c82ab, c82a_b]) = drawBelow ⟨false, true⟩ (.concat [c82ab]) ∧ c82ab ≠ c82a_b ∧
    drawBelow ⟨false, true⟩ (.concat [c82a, c82a]) = drawBelow ⟨false, true⟩ (.concat [c82a]) ∧
    ∃ g, drawBelow ⟨false, true⟩ (.branch c82c c82a c82a) = .ok g ∧
      g.edges.map (fun e => e.2.1) = [none, some .cond, some .fals] := by
  refine ⟨by decide +kernel, by decide, by decide +kernel, ?_⟩
  refine ⟨_, rfl, ?_⟩
  decide +kernel

/-- With one node per occurrence these are different graphs, and all three lines of the branch are there. -/
example : drawBelow ⟨true, true⟩ (.concat [c82a, c82a]) ≠ drawBelow ⟨true, true⟩ (.concat [c82a]) := by decide +kernel

example : ∃ g, drawBelow ⟨true, true⟩ (.branch c82c c82a c82a) = .ok g ∧
      g.edges.map (fun e => e.2) = [(none, .black), (some .cond, .blue), (some .tru, .green), (some .fals, .red)] := by
  refine ⟨_, rfl, ?_⟩
  decide +kernel

/-- `generate` for a signal of the design `assign x = y & a; assign y = x | r; …` in a new graph. -/
def c82gen (identical : Bool) (step : Int) (c : Char) : Py Graph :=
  (mergeEnvOf c33ctx 20 1 c33binds c33binds).generateGraph (c33ctx.optimize 20 1) 20 false emptyGraph [c] (c33n c)
    { identical := identical, step := step }

/-- Non-vacuity of both theorems: the tree `((y & a) | r) & a` of `x` has 7 nodes, so 8 nodes are drawn, and 7 when
the two occurrences of `a` share one. -/
example : (∃ g, c82gen true 0 'x' = .ok g) ∧ (∃ g, c82gen false 0 'x' = .ok g) ∧
    (c82gen true 0 'x').map (fun g => (g.nodes.length, g.edges.length)) = .ok (8, 7) ∧
    (c82gen false 0 'x').map (fun g => (g.nodes.length, g.edges.length)) = .ok (7, 7) ∧
    emptyGraph.WF ∧ emptyGraph.Tidy := by
  refine ⟨?_, ?_, by decide +kernel, by decide +kernel, emptyGraph_wf, emptyGraph_tidy⟩
  · cases h : c82gen true 0 'x' with
    | ok g => exact ⟨g, rfl⟩
    | error e =>
      have : (c82gen true 0 'x').map (fun g => (g.nodes.length, g.edges.length)) = .ok (8, 7) := by decide +kernel
      rw [h] at this; simp [Except.map] at this
  · cases h : c82gen false 0 'x' with
    | ok g => exact ⟨g, rfl⟩
    | error e =>
      have : (c82gen false 0 'x').map (fun g => (g.nodes.length, g.edges.length)) = .ok (7, 7) := by decide +kernel
      rw [h] at this; simp [Except.map] at this

/-- Non-vacuity of `C82_undefined`: the input `a` has no dataflow. -/
example : (mergeEnvOf c33ctx 20 1 c33binds c33binds).getTree (c33n 'a') .none = .ok .none ∧
    c82gen true 0 'a' = .error .definition := by
  have h : (mergeEnvOf c33ctx 20 1 c33binds c33binds).getTree (c33n 'a') .none = .ok .none := by decide +kernel
  exact ⟨h, C82_undefined h⟩

end Pyv
