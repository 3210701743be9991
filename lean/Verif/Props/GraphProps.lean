import Verif.Graphgen
import Verif.Props.StoresProps
/-
  C82: the drawn dataflow graph (graphgen.py).
-/
namespace Pyv

/-! ### Specification -/

/-- The operands of a node, from left to right, with the label and the colour of the line that leads to them: a branch
has a blue condition, a green and a red alternative; the bounds of a selection are orange; everything else keeps the
colour of its node. -/
def DF.operands (col : Colour) : DF → List (Option ELabel × Colour × DF)
  | .op _ ns => ns.map (fun n => (Option.none, col, n))
  | .concat ns => ns.map (fun n => (Option.none, col, n))
  | .psel v m l => [(some .var, col, v), (some .msb, .orange, m), (some .lsb, .orange, l)]
  | .ptr v p => [(some .var, col, v), (some .ptr, .orange, p)]
  | .branch c t f => [(some .cond, .blue, c), (some .tru, .green, t), (some .fals, .red, f)]
  | .delay n => [(Option.none, col, n)]
  | _ => []

/-- The lines that leave node `n`: target, label, colour. -/
def Graph.outs (g : Graph) (n : Str) : List (Str × Option ELabel × Colour) :=
  g.edges.filterMap (fun e => if e.1.1 = n then some (e.1.2, e.2) else none)

/-- The colour one sees: without the option `withcolor` everything is black. -/
def GCfg.shown (c : GCfg) (col : Colour) : Colour :=
  match c.withcolor with
  | true => col
  | false => .black

theorem GCfg.paint_shown (c : GCfg) (col : Colour) : c.paint col = c.shown col := by
  unfold GCfg.paint GCfg.shown
  cases c.withcolor <;> simp

mutual
/-- In graph `g` the node `n` is the root of a drawing of tree `t` in colour `col`: it shows the label of `t`, and the
lines that leave it lead, in order, to drawings of the operands of `t` (no line more, no line less). -/
inductive Graph.Shows (c : GCfg) (g : Graph) : Colour → Str → DF → Prop
  | mk {col n t label} : t.tolabel = .ok label → g.nodes.get? n = some (some label, some (c.shown col)) →
      Graph.ShowsAll c g (g.outs n) (t.operands col) → Graph.Shows c g col n t
/-- Each line leads to a drawing of its operand. -/
inductive Graph.ShowsAll (c : GCfg) (g : Graph) :
    List (Str × Option ELabel × Colour) → List (Option ELabel × Colour × DF) → Prop
  | nil : Graph.ShowsAll c g [] []
  | cons {m el col t ks os} : Graph.Shows c g col m t → Graph.ShowsAll c g ks os →
      Graph.ShowsAll c g ((m, el, c.shown col) :: ks) ((el, col, t) :: os)
end

mutual
/-- Number of nodes of a tree. -/
def DF.count : DF → Nat
  | .op _ ns => DF.countList ns + 1
  | .concat ns => DF.countList ns + 1
  | .sys _ ns => DF.countList ns + 1
  | .psel v m l => v.count + m.count + l.count + 1
  | .ptr v p => v.count + p.count + 1
  | .branch c t f => c.count + t.count + f.count + 1
  | .delay n => n.count + 1
  | _ => 1
def DF.countList : List DF → Nat
  | [] => 0
  | n :: ns => n.count + DF.countList ns
end

mutual
/-- No missing child and no system call anywhere (`replaceUndefined` returns only such trees). -/
def DF.whole : DF → Prop
  | .none => False
  | .sys _ _ => False
  | .op _ ns => DF.wholeList ns
  | .concat ns => DF.wholeList ns
  | .psel v m l => v.whole ∧ m.whole ∧ l.whole
  | .ptr v p => v.whole ∧ p.whole
  | .branch c t f => c.whole ∧ t.whole ∧ f.whole
  | .delay n => n.whole
  | _ => True
def DF.wholeList : List DF → Prop
  | [] => True
  | n :: ns => n.whole ∧ DF.wholeList ns
end

/-- A graph as `generate` leaves it: lines join nodes of the graph, and no node has a name that is still to be
given out. -/
structure Graph.WF (g : Graph) : Prop where
  ends : ∀ e ∈ g.edges, g.nodes.has e.1.1 = true ∧ g.nodes.has e.1.2 = true
  fresh : ∀ l k, g.counter ≤ k → g.nodes.has (l ++ renameMark ++ natStr k) = false

/-! ### Dictionaries -/

theorem Dict.set_fresh {κ α : Type} [DecidableEq κ] {d : Dict κ α} {k : κ} {v : α} (h : d.has k = false) :
    d.set k v = d ++ [(k, v)] := by
  induction d with
  | nil => rfl
  | cons p d ih =>
    obtain ⟨a, b⟩ := p
    simp only [Dict.has, List.any_cons, Bool.or_eq_false_iff, decide_eq_false_iff_not] at h
    simp only [Dict.set, if_neg h.1, List.cons_append]
    rw [ih (by simpa [Dict.has] using h.2)]

theorem Dict.set_same {κ α : Type} [DecidableEq κ] {d : Dict κ α} {k : κ} {v : α} (h : d.get? k = some v) :
    d.set k v = d := by
  induction d with
  | nil => simp [Dict.get?_nil] at h
  | cons p d ih =>
    obtain ⟨a, b⟩ := p
    rw [Dict.get?_cons] at h
    simp only [Dict.set]
    by_cases e : a = k
    · simp only [e, if_true] at h ⊢
      cases h; rfl
    · simp only [e, if_false] at h ⊢
      rw [ih h]

theorem Dict.has_append {κ α : Type} [DecidableEq κ] (d e : Dict κ α) (k : κ) : Dict.has (d ++ e) k = (d.has k || e.has k) := by
  simp [Dict.has]

theorem Dict.get?_append_left {κ α : Type} [DecidableEq κ] {d e : Dict κ α} {k : κ} (h : e.has k = false) :
    Dict.get? (d ++ e) k = d.get? k := by
  induction d with
  | nil =>
    have := Dict.has_eq e k
    rw [h] at this
    simp only [List.nil_append, Dict.get?_nil]
    cases hh : e.get? k with
    | none => rfl
    | some _ => rw [hh] at this; simp at this
  | cons p d ih => rw [List.cons_append, Dict.get?_cons, Dict.get?_cons, ih]

theorem Dict.get?_append_right {κ α : Type} [DecidableEq κ] {d e : Dict κ α} {k : κ} (h : d.has k = false) :
    Dict.get? (d ++ e) k = e.get? k := by
  induction d with
  | nil => rfl
  | cons p d ih =>
    obtain ⟨a, b⟩ := p
    simp only [Dict.has, List.any_cons, Bool.or_eq_false_iff, decide_eq_false_iff_not] at h
    rw [List.cons_append, Dict.get?_cons, if_neg h.1, ih (by simpa [Dict.has] using h.2)]

theorem Dict.has_iff_key {κ α : Type} [DecidableEq κ] {d : Dict κ α} {k : κ} : d.has k = true ↔ k ∈ d.map (·.1) := by
  simp [Dict.has]

/-! ### Names -/

/-- The `k`-th new name for label `l`. -/
def graphName (l : Str) (k : Nat) : Str := l ++ renameMark ++ natStr k

theorem mark_noDigit (l : Str) : NoDigitEnd (l ++ renameMark) := by
  intro c hc
  have : (l ++ renameMark).getLast? = some '_' := by
    rw [List.getLast?_append]; rfl
  rw [this] at hc; cases hc; decide

theorem graphName_inj {l l' : Str} {k k' : Nat} (h : graphName l k = graphName l' k') : k = k' :=
  natStr_inj (append_digits_inj (mark_noDigit l) (mark_noDigit l') (natStr_digits k) (natStr_digits k') h).2

/-! ### Growth of the graph -/

/-- What one drawing adds to a graph whose counter is `k`: nodes `ns` and lines `es`. -/
structure Grown (g g' : Graph) (ns : Dict Str (Option Str × Option Colour)) (es : Dict (Str × Str) (Option ELabel × Colour)) (size : Nat) : Prop where
  nodes : g'.nodes = g.nodes ++ ns
  edges : g'.edges = g.edges ++ es
  counter : g'.counter = g.counter + size
  names : ∀ x ∈ ns, ∃ l k, g.counter ≤ k ∧ k < g.counter + size ∧ x.1 = graphName l k
  nodup : (ns.map (·.1)).Nodup
  targets : es.map (·.1.2) = ns.map (·.1)
  size : ns.length = size

/-- The lines of `es` that leave `n`. -/
def outsOf (es : Dict (Str × Str) (Option ELabel × Colour)) (n : Str) : List (Str × Option ELabel × Colour) :=
  es.filterMap (fun e => if e.1.1 = n then some (e.1.2, e.2) else none)

theorem outsOf_append (a b : Dict (Str × Str) (Option ELabel × Colour)) (n : Str) : outsOf (a ++ b) n = outsOf a n ++ outsOf b n := by
  simp [outsOf]

theorem outsOf_nil_of {es : Dict (Str × Str) (Option ELabel × Colour)} {n : Str} (h : ∀ e ∈ es, e.1.1 ≠ n) : outsOf es n = [] := by
  unfold outsOf
  rw [List.filterMap_eq_nil_iff]
  intro e he
  simp [h e he]

/-- The graph `h` contains what was added. -/
structure Has (h : Graph) (ns : Dict Str (Option Str × Option Colour)) (es : Dict (Str × Str) (Option ELabel × Colour)) : Prop where
  nodes : ∀ x ∈ ns, h.nodes.get? x.1 = some x.2
  outs : ∀ x ∈ ns, h.outs x.1 = outsOf es x.1

theorem wf_names {g g' : Graph} {ns es size} (w : g.WF) (r : Grown g g' ns es size) : ∀ x ∈ ns, g.nodes.has x.1 = false := by
  intro x hx
  obtain ⟨l, k, h1, h2, e⟩ := r.names x hx
  rw [e]; exact w.fresh l k h1

theorem Grown.wf {g g' : Graph} {ns es size} (w : g.WF) (r : Grown g g' ns es size)
    (hs : ∀ e ∈ es, g'.nodes.has e.1.1 = true) : g'.WF := by
  constructor
  · intro e he
    rw [r.edges] at he
    rcases List.mem_append.mp he with he | he
    · have := w.ends e he
      rw [r.nodes, Dict.has_append, Dict.has_append, this.1, this.2]; simp
    · refine ⟨hs e he, ?_⟩
      have : e.1.2 ∈ ns.map (·.1) := by rw [← r.targets]; exact List.mem_map_of_mem he
      rw [r.nodes, Dict.has_append, Dict.has_iff_key.mpr this]; simp
  · intro l k hk
    rw [r.counter] at hk
    rw [r.nodes, Dict.has_append, w.fresh l k (by omega), Bool.false_or]
    by_contra hne
    rw [Bool.not_eq_false, Dict.has_iff_key] at hne
    obtain ⟨x, hx, e⟩ := List.mem_map.mp hne
    obtain ⟨l', k', h1, h2, e'⟩ := r.names x hx
    have := graphName_inj (l := l) (k := k) (e.symm.trans e')
    omega

theorem Grown.trans {g g1 g2 : Graph} {ns ns' es es' a b} (r : Grown g g1 ns es a) (r' : Grown g1 g2 ns' es' b) :
    Grown g g2 (ns ++ ns') (es ++ es') (a + b) := by
  refine ⟨by rw [r'.nodes, r.nodes, List.append_assoc], by rw [r'.edges, r.edges, List.append_assoc],
    by rw [r'.counter, r.counter]; omega, ?_, ?_, by rw [List.map_append, List.map_append, r.targets, r'.targets],
    by rw [List.length_append, r.size, r'.size]⟩
  · intro x hx
    rcases List.mem_append.mp hx with hx | hx
    · obtain ⟨l, k, h1, h2, e⟩ := r.names x hx
      exact ⟨l, k, h1, by omega, e⟩
    · obtain ⟨l, k, h1, h2, e⟩ := r'.names x hx
      rw [r.counter] at h1 h2
      exact ⟨l, k, by omega, by omega, e⟩
  · rw [List.map_append, List.nodup_append]
    refine ⟨r.nodup, r'.nodup, ?_⟩
    intro x hx y hy e
    obtain ⟨x', hx', rfl⟩ := List.mem_map.mp hx
    obtain ⟨y', hy', rfl⟩ := List.mem_map.mp hy
    obtain ⟨l, k, h1, h2, e1⟩ := r.names x' hx'
    obtain ⟨l', k', h1', h2', e2⟩ := r'.names y' hy'
    rw [r.counter] at h1'
    have := graphName_inj (e1.symm.trans (e.trans e2))
    omega

theorem Grown.refl (g : Graph) : Grown g g [] [] 0 :=
  ⟨by simp, by simp, rfl, by simp, by simp, rfl, rfl⟩

theorem Has.left {h : Graph} {ns ns' es es'} (hh : Has h (ns ++ ns') (es ++ es'))
    (hd : ∀ x ∈ ns, ∀ e ∈ es', e.1.1 ≠ x.1) : Has h ns es := by
  refine ⟨fun x hx => hh.nodes x (by simp [hx]), fun x hx => ?_⟩
  rw [hh.outs x (by simp [hx]), outsOf_append, outsOf_nil_of (hd x hx), List.append_nil]

theorem Has.right {h : Graph} {ns ns' es es'} (hh : Has h (ns ++ ns') (es ++ es'))
    (hd : ∀ x ∈ ns', ∀ e ∈ es, e.1.1 ≠ x.1) : Has h ns' es' := by
  refine ⟨fun x hx => hh.nodes x (by simp [hx]), fun x hx => ?_⟩
  rw [hh.outs x (by simp [hx]), outsOf_append, outsOf_nil_of (hd x hx), List.nil_append]

/-- Adding one renamed node. -/
theorem addRenamed_grown {c : GCfg} {g g' : Graph} {t : DF} {parent name : Str} {col el} (w : g.WF)
    (hp : g.nodes.has parent = true) (h : g.addRenamed c t parent col el = .ok (name, g')) :
    ∃ label, t.tolabel = .ok label ∧ name = graphName label g.counter ∧
      Grown g g' [(name, (some label, some (c.paint col)))] [((parent, name), (el, c.paint col))] 1 := by
  unfold Graph.addRenamed at h
  cases hl : t.tolabel with
  | error e => rw [hl] at h; simp [bind, Except.bind] at h
  | ok label =>
    rw [hl] at h
    simp only [bind, Except.bind, Graph.rename, Except.ok.injEq, Prod.mk.injEq] at h
    obtain ⟨rfl, rfl⟩ := h
    refine ⟨label, rfl, rfl, ?_⟩
    have hf : g.nodes.has (label ++ renameMark ++ natStr g.counter) = false := w.fresh label g.counter (le_refl _)
    set name := label ++ renameMark ++ natStr g.counter with hname
    have hg0 : g.nodes.get? name = none := by
      have := Dict.has_eq g.nodes name
      rw [hf] at this
      cases hh : g.nodes.get? name with
      | none => rfl
      | some _ => rw [hh] at this; simp at this
    obtain ⟨pv, hpv⟩ : ∃ v, g.nodes.get? parent = some v := by
      have := Dict.has_eq g.nodes parent
      rw [hp] at this
      cases hh : g.nodes.get? parent with
      | none => rw [hh] at this; simp at this
      | some v => exact ⟨v, rfl⟩
    have hne : name ≠ parent := by intro e; rw [e, hp] at hf; simp at hf
    have e1 : g.nodes.set name (some label, some (c.paint col)) = g.nodes ++ [(name, (some label, some (c.paint col)))] :=
      Dict.set_fresh hf
    have e2 : Dict.get? (g.nodes ++ [(name, (some label, some (c.paint col)))]) parent = some pv := by
      rw [Dict.get?_append_left (by simp [Dict.has, hne]), hpv]
    have e3 : Dict.get? (g.nodes ++ [(name, (some label, some (c.paint col)))]) name = some (some label, some (c.paint col)) := by
      rw [Dict.get?_append_right hf, Dict.get?_cons]; simp
    have hfe : Dict.has g.edges (parent, name) = false := by
      by_contra hne
      rw [Bool.not_eq_false, Dict.has_iff_key] at hne
      obtain ⟨e, he, ee⟩ := List.mem_map.mp hne
      have := (w.ends e he).2
      rw [ee] at this
      rw [this] at hf; simp at hf
    have hge : Dict.get? g.edges (parent, name) = none := by
      have := Dict.has_eq g.edges (parent, name)
      rw [hfe] at this
      cases hh : Dict.get? g.edges (parent, name) with
      | none => rfl
      | some _ => rw [hh] at this; simp at this
    have hnodes : (((({ g with counter := g.counter + 1 } : Graph).addNode c name (some label) col).node parent none none).node name none none).nodes =
        g.nodes ++ [(name, (some label, some (c.paint col)))] := by
      simp only [Graph.addNode, Graph.node, hg0, Option.getD_none, Option.orElse_some, e1, e2, Option.getD_some,
        Option.orElse_none]
      rw [show (pv.1, pv.2) = pv from rfl, Dict.set_same e2]
      simp only [e3, Option.getD_some]
      rw [Dict.set_same e3]
    refine ⟨hnodes, ?_, rfl, ?_, by simp, rfl, rfl⟩
    · simp only [Graph.addEdge]
      rw [show (((({ g with counter := g.counter + 1 } : Graph).addNode c name (some label) col).node parent none none).node name none none).edges = g.edges from rfl]
      rw [Dict.set_fresh hfe, hge]
      cases el <;> rfl
    · intro x hx
      simp only [List.mem_singleton] at hx
      subst hx
      exact ⟨label, g.counter, by omega, by omega, rfl⟩

/-! ### Drawing a tree -/

/-- The size of a list of operands. -/
def opCount (os : List (Option ELabel × Colour × DF)) : Nat := DF.countList (os.map (·.2.2))

/-- From `g` to `g'` the operands `os` were drawn below `parent`. -/
def Drawn (c : GCfg) (g g' : Graph) (parent : Str) (os : List (Option ELabel × Colour × DF)) : Prop :=
  ∃ ns es, Grown g g' ns es (opCount os) ∧ (∀ e ∈ es, e.1.1 = parent ∨ e.1.1 ∈ ns.map (·.1)) ∧
    ∀ h, Has h ns es → Graph.ShowsAll c h (outsOf es parent) os

theorem Graph.ShowsAll.append {c : GCfg} {g : Graph} {ks os ks' os'} (h : Graph.ShowsAll c g ks os) (h' : Graph.ShowsAll c g ks' os') :
    Graph.ShowsAll c g (ks ++ ks') (os ++ os') := by
  induction os generalizing ks with
  | nil => cases h; exact h'
  | cons o os ih =>
    cases h with
    | cons a b => exact .cons a (ih b)

theorem countList_append (a b : List DF) : DF.countList (a ++ b) = DF.countList a + DF.countList b := by
  induction a with
  | nil => simp [DF.countList]
  | cons x a ih => simp only [List.cons_append, DF.countList, ih]; omega

theorem opCount_append (a b) : opCount (a ++ b) = opCount a + opCount b := by
  simp [opCount, countList_append]

theorem Drawn.wf {c : GCfg} {g g' : Graph} {parent os} (w : g.WF) (hp : g.nodes.has parent = true)
    (d : Drawn c g g' parent os) : g'.WF ∧ g'.nodes.has parent = true := by
  obtain ⟨ns, es, r, hs, -⟩ := d
  have hp' : g'.nodes.has parent = true := by rw [r.nodes, Dict.has_append, hp]; rfl
  refine ⟨r.wf w ?_, hp'⟩
  intro e he
  rcases hs e he with h | h
  · rw [h]; exact hp'
  · rw [r.nodes, Dict.has_append, Dict.has_iff_key.mpr h]; simp

theorem Drawn.nil (c : GCfg) (g : Graph) (parent) : Drawn c g g parent [] :=
  ⟨[], [], Grown.refl g, by simp, fun h _ => .nil⟩

theorem Drawn.append {c : GCfg} {g g1 g2 : Graph} {parent os os'} (w : g.WF) (hp : g.nodes.has parent = true)
    (d : Drawn c g g1 parent os) (d' : Drawn c g1 g2 parent os') : Drawn c g g2 parent (os ++ os') := by
  obtain ⟨w1, hp1⟩ := d.wf w hp
  obtain ⟨ns, es, r, hs, hh⟩ := d
  obtain ⟨ns', es', r', hs', hh'⟩ := d'
  have f1 := wf_names w r
  have f2 := wf_names w1 r'
  have rr := r.trans r'
  refine ⟨ns ++ ns', es ++ es', by rw [opCount_append]; exact rr, ?_, ?_⟩
  · intro e he
    rw [List.map_append, List.mem_append]
    rcases List.mem_append.mp he with he | he
    · rcases hs e he with h | h
      · exact .inl h
      · exact .inr (.inl h)
    · rcases hs' e he with h | h
      · exact .inl h
      · exact .inr (.inr h)
  · intro h hH
    have nd := rr.nodup
    rw [List.map_append, List.nodup_append] at nd
    rw [outsOf_append]
    refine Graph.ShowsAll.append (hh h (hH.left ?_)) (hh' h (hH.right ?_))
    · intro x hx e he ee
      rcases hs' e he with h1 | h1
      · have := f1 x hx
        rw [← ee, h1, hp] at this; simp at this
      · exact nd.2.2 x.1 (List.mem_map_of_mem hx) e.1.1 h1 ee.symm
    · intro x hx e he ee
      rcases hs e he with h1 | h1
      · have := f2 x hx
        rw [← ee, h1, hp1] at this; simp at this
      · exact nd.2.2 e.1.1 h1 x.1 (List.mem_map_of_mem hx) ee

/-- A renamed node and the drawings of its operands below it. -/
theorem Drawn.node {c : GCfg} {g g1 g' : Graph} {t : DF} {parent name : Str} {col el} (w : g.WF)
    (hp : g.nodes.has parent = true) (ha : g.addRenamed c t parent col el = .ok (name, g1))
    (ht : t.count = opCount (t.operands col) + 1)
    (d : g1.WF → g1.nodes.has name = true → Drawn c g1 g' name (t.operands col)) : Drawn c g g' parent [(el, col, t)] := by
  obtain ⟨label, hl, hn, r⟩ := addRenamed_grown w hp ha
  have hp1 : g1.nodes.has parent = true := by rw [r.nodes, Dict.has_append, hp]; rfl
  have hn1 : g1.nodes.has name = true := by rw [r.nodes, Dict.has_append]; simp [Dict.has]
  have w1 : g1.WF := r.wf w (by intro e he; simp only [List.mem_singleton] at he; subst he; exact hp1)
  have d := d w1 hn1
  obtain ⟨ns, es, r', hs, hh⟩ := d
  have f1 := wf_names w1 r'
  have hpn : name ≠ parent := by
    intro e
    have := wf_names w r (name, _) (List.mem_singleton.mpr rfl)
    simp only at this
    rw [e, hp] at this; simp at this
  have rr := r.trans r'
  have hsp : ∀ e ∈ es, e.1.1 ≠ parent := by
    intro e he ee
    rcases hs e he with h1 | h1
    · exact hpn (h1.symm.trans ee)
    · obtain ⟨x, hx, e2⟩ := List.mem_map.mp h1
      have := f1 x hx
      rw [e2, ee, hp1] at this; simp at this
  refine ⟨[(name, some label, some (c.paint col))] ++ ns, [((parent, name), el, c.paint col)] ++ es, ?_, ?_, ?_⟩
  · have e : opCount [(el, col, t)] = 1 + opCount (t.operands col) := by
      rw [show opCount [(el, col, t)] = t.count + 0 from rfl, ht]; omega
    rw [e]; exact rr
  · intro e he
    rcases List.mem_append.mp he with he | he
    · simp only [List.mem_singleton] at he; subst he; exact .inl rfl
    · rcases hs e he with h1 | h1
      · right; rw [h1]; simp
      · right; simp only [List.map_append, List.mem_append]; exact .inr h1
  · intro h hH
    have e0 : outsOf ([((parent, name), (el, c.paint col))] ++ es) parent = [(name, el, c.paint col)] := by
      rw [outsOf_append, outsOf_nil_of hsp]; simp [outsOf]
    rw [e0, c.paint_shown]
    refine .cons (.mk hl (by rw [← c.paint_shown]; exact hH.nodes (name, _) (by simp)) ?_) .nil
    have e1 : h.outs name = outsOf es name := by
      rw [hH.outs (name, _) (List.mem_append_left _ (List.mem_singleton.mpr rfl)), outsOf_append]
      simp [outsOf, hpn.symm]
    rw [e1]
    refine hh h (hH.right ?_)
    intro x hx e he ee
    simp only [List.mem_singleton] at he
    subst he
    have := f1 x hx
    rw [← ee] at this
    simp only at this
    rw [hp1] at this; simp at this

theorem leaf_drawn {c : GCfg} {g g' : Graph} {t : DF} {parent : Str} {col el} (w : g.WF) (hp : g.nodes.has parent = true)
    (ht : t.operands col = []) (hc : t.count = 1)
    (h : (do let r ← g.addRenamed c t parent col el; .ok r.2 : Py Graph) = .ok g') : Drawn c g g' parent [(el, col, t)] := by
  cases ha : g.addRenamed c t parent col el with
  | error e => rw [ha] at h; simp [bind, Except.bind] at h
  | ok r =>
    rw [ha] at h
    simp only [bind, Except.bind, Except.ok.injEq] at h
    subst h
    refine Drawn.node w hp (name := r.1) (by rw [ha]) (by rw [ht, hc]; rfl) ?_
    intro _ _
    rw [ht]; exact Drawn.nil _ _ _

/-- The drawing of a tree shows the tree, when signals are drawn once per occurrence. -/
theorem visit_drawn {c : GCfg} (hi : c.identical = true) (t : DF) : ∀ {g g' : Graph} {parent : Str} {col el}, t.whole → g.WF →
    g.nodes.has parent = true → Graph.visit c g parent col el t = .ok g' → Drawn c g g' parent [(el, col, t)] := by
  have list : ∀ (ns : List DF), (∀ n ∈ ns, ∀ {g g' : Graph} {parent : Str} {col el}, n.whole → g.WF →
      g.nodes.has parent = true → Graph.visit c g parent col el n = .ok g' → Drawn c g g' parent [(el, col, n)]) →
      ∀ {g g' : Graph} {parent : Str} {col}, DF.wholeList ns → g.WF → g.nodes.has parent = true →
      Graph.visitList c g parent col none ns = .ok g' → Drawn c g g' parent (ns.map (fun n => (none, col, n))) := by
    intro ns
    induction ns with
    | nil => intro _ g g' parent col _ w hp h; cases h; exact Drawn.nil _ _ _
    | cons n ns ih =>
      intro hn g g' parent col hw w hp h
      rw [Graph.visitList] at h
      obtain ⟨g1, h1, h2⟩ := bind_ok.mp h
      have d := hn n (by simp) hw.1 w hp h1
      obtain ⟨w1, hp1⟩ := d.wf w hp
      exact Drawn.append w hp d (ih (fun m hm => hn m (by simp [hm])) hw.2 w1 hp1 h2)
  induction t using DF.ind with
  | none => intro g g' parent col el hw; exact hw.elim
  | sys s ns _ => intro g g' parent col el hw; exact hw.elim
  | term n =>
    intro g g' parent col el _ w hp h
    rw [Graph.visit, if_pos hi] at h
    exact leaf_drawn w hp rfl rfl h
  | intc s => intro g g' parent col el _ w hp h; rw [Graph.visit] at h; exact leaf_drawn w hp rfl rfl h
  | fltc s => intro g g' parent col el _ w hp h; rw [Graph.visit] at h; exact leaf_drawn w hp rfl rfl h
  | strc s => intro g g' parent col el _ w hp h; rw [Graph.visit] at h; exact leaf_drawn w hp rfl rfl h
  | ev v k a b => intro g g' parent col el _ w hp h; rw [Graph.visit] at h; exact leaf_drawn w hp rfl rfl h
  | undef k => intro g g' parent col el _ w hp h; rw [Graph.visit] at h; exact leaf_drawn w hp rfl rfl h
  | hiz k => intro g g' parent col el _ w hp h; rw [Graph.visit] at h; exact leaf_drawn w hp rfl rfl h
  | op o ns ih =>
    intro g g' parent col el hw w hp h
    rw [Graph.visit] at h
    obtain ⟨r, h1, h2⟩ := bind_ok.mp h
    refine Drawn.node w hp (name := r.1) (g1 := r.2) h1 ?_ ?_
    · simp only [DF.count, DF.operands, opCount, List.map_map]; congr 2; simp [Function.comp_def]
    · intro w1 hp1; exact list ns (fun n hn => ih n hn) hw w1 hp1 h2
  | concat ns ih =>
    intro g g' parent col el hw w hp h
    rw [Graph.visit] at h
    obtain ⟨r, h1, h2⟩ := bind_ok.mp h
    refine Drawn.node w hp (name := r.1) (g1 := r.2) h1 ?_ ?_
    · simp only [DF.count, DF.operands, opCount, List.map_map]; congr 2; simp [Function.comp_def]
    · intro w1 hp1; exact list ns (fun n hn => ih n hn) hw w1 hp1 h2
  | psel v m l hv hm hl =>
    intro g g' parent col el hw w hp h
    rw [Graph.visit] at h
    obtain ⟨r, h1, h⟩ := bind_ok.mp h
    obtain ⟨g1, h2, h⟩ := bind_ok.mp h
    obtain ⟨g2, h3, h⟩ := bind_ok.mp h
    refine Drawn.node w hp (name := r.1) (g1 := r.2) h1 ?_ ?_
    · simp only [DF.count, DF.operands, opCount, List.map_cons, List.map_nil, DF.countList]; omega
    · intro w1 hp1
      have d1 := hv hw.1 w1 hp1 h2
      obtain ⟨w2, hp2⟩ := d1.wf w1 hp1
      have d2 := hm hw.2.1 w2 hp2 h3
      obtain ⟨w3, hp3⟩ := d2.wf w2 hp2
      have d3 := hl hw.2.2 w3 hp3 h
      exact Drawn.append w1 hp1 d1 (Drawn.append w2 hp2 d2 d3)
  | ptr v m hv hm =>
    intro g g' parent col el hw w hp h
    rw [Graph.visit] at h
    obtain ⟨r, h1, h⟩ := bind_ok.mp h
    obtain ⟨g1, h2, h⟩ := bind_ok.mp h
    refine Drawn.node w hp (name := r.1) (g1 := r.2) h1 ?_ ?_
    · simp only [DF.count, DF.operands, opCount, List.map_cons, List.map_nil, DF.countList]; omega
    · intro w1 hp1
      have d1 := hv hw.1 w1 hp1 h2
      obtain ⟨w2, hp2⟩ := d1.wf w1 hp1
      exact Drawn.append w1 hp1 d1 (hm hw.2 w2 hp2 h)
  | branch v m l hv hm hl =>
    intro g g' parent col el hw w hp h
    rw [Graph.visit] at h
    obtain ⟨r, h1, h⟩ := bind_ok.mp h
    obtain ⟨g1, h2, h⟩ := bind_ok.mp h
    obtain ⟨g2, h3, h⟩ := bind_ok.mp h
    refine Drawn.node w hp (name := r.1) (g1 := r.2) h1 ?_ ?_
    · simp only [DF.count, DF.operands, opCount, List.map_cons, List.map_nil, DF.countList]; omega
    · intro w1 hp1
      have d1 := hv hw.1 w1 hp1 h2
      obtain ⟨w2, hp2⟩ := d1.wf w1 hp1
      have d2 := hm hw.2.1 w2 hp2 h3
      obtain ⟨w3, hp3⟩ := d2.wf w2 hp2
      have d3 := hl hw.2.2 w3 hp3 h
      exact Drawn.append w1 hp1 d1 (Drawn.append w2 hp2 d2 d3)
  | delay n hn =>
    intro g g' parent col el hw w hp h
    rw [Graph.visit] at h
    obtain ⟨r, h1, h2⟩ := bind_ok.mp h
    refine Drawn.node w hp (name := r.1) (g1 := r.2) h1 ?_ ?_
    · simp only [DF.count, DF.operands, opCount, List.map_cons, List.map_nil, DF.countList]
    · intro w1 hp1; exact hn hw w1 hp1 h2

/-! ### The trees that are drawn -/

theorem replaceUndefined_whole (x : ScopeChain) (t : DF) : ∀ {r}, replaceUndefined x t = .ok r → r.whole := by
  have list : ∀ (ns : List DF), (∀ n ∈ ns, ∀ {r}, replaceUndefined x n = .ok r → r.whole) →
      ∀ {rs}, replaceUndefinedList x ns = .ok rs → DF.wholeList rs := by
    intro ns
    induction ns with
    | nil => intro _ rs h; cases h; trivial
    | cons n ns ih =>
      intro hn rs h
      rw [replaceUndefinedList] at h
      obtain ⟨a, h1, h⟩ := bind_ok.mp h
      obtain ⟨as, h2, h⟩ := bind_ok.mp h
      cases h
      exact ⟨hn n (by simp) h1, ih (fun m hm => hn m (by simp [hm])) h2⟩
  induction t using DF.ind with
  | none => intro r h; cases h; trivial
  | term n => intro r h; cases h; trivial
  | intc n => intro r h; cases h; trivial
  | fltc n => intro r h; cases h; trivial
  | strc n => intro r h; cases h; trivial
  | ev v w a b => intro r h; cases h; trivial
  | undef w => intro r h; cases h; trivial
  | hiz w => intro r h; cases h
  | delay w => intro r h; cases h
  | sys s ns => intro r h; cases h
  | op o ns ih =>
    intro r h
    rw [replaceUndefined] at h
    obtain ⟨rs, h1, h⟩ := bind_ok.mp h
    unfold DF.mkOp at h
    split at h
    · cases h
    · cases h; exact list ns ih h1
  | concat ns ih =>
    intro r h
    rw [replaceUndefined] at h
    obtain ⟨rs, h1, h⟩ := bind_ok.mp h
    cases h; exact list ns ih h1
  | psel v m l hv hm hl =>
    intro r h
    rw [replaceUndefined] at h
    obtain ⟨m', h1, h⟩ := bind_ok.mp h
    obtain ⟨l', h2, h⟩ := bind_ok.mp h
    obtain ⟨v', h3, h⟩ := bind_ok.mp h
    cases h; exact ⟨hv h3, hm h1, hl h2⟩
  | ptr v m hv hm =>
    intro r h
    rw [replaceUndefined] at h
    obtain ⟨m', h1, h⟩ := bind_ok.mp h
    obtain ⟨v', h3, h⟩ := bind_ok.mp h
    cases h; exact ⟨hv h3, hm h1⟩
  | branch v m l hv hm hl =>
    intro r h
    rw [replaceUndefined] at h
    obtain ⟨m', h1, h⟩ := bind_ok.mp h
    obtain ⟨l', h2, h⟩ := bind_ok.mp h
    obtain ⟨v', h3, h⟩ := bind_ok.mp h
    cases h; exact ⟨hv h1, hm h2, hl h3⟩

theorem graphTree_whole {S : MergeEnv} {opt fuel n o t} (h : S.graphTree opt fuel n o = .ok t) : t.whole := by
  unfold MergeEnv.graphTree at h
  obtain ⟨_, _, h⟩ := bind_ok.mp h
  obtain ⟨_, _, h⟩ := bind_ok.mp h
  obtain ⟨_, _, h⟩ := bind_ok.mp h
  obtain ⟨_, _, h⟩ := bind_ok.mp h
  obtain ⟨_, _, h⟩ := bind_ok.mp h
  exact replaceUndefined_whole _ _ h

theorem get?_of_mem_nodup {κ α : Type} [DecidableEq κ] {d : Dict κ α} (hd : (d.map (·.1)).Nodup) {x : κ × α} (hx : x ∈ d) :
    Dict.get? d x.1 = some x.2 := by
  induction d with
  | nil => simp at hx
  | cons p d ih =>
    simp only [List.map_cons, List.nodup_cons] at hd
    rw [Dict.get?_cons]
    rcases List.mem_cons.mp hx with rfl | hx
    · simp
    · have : p.1 ≠ x.1 := fun e => hd.1 (e ▸ List.mem_map_of_mem hx)
      rw [if_neg this, ih hd.2 hx]

theorem Grown.has {g g' : Graph} {ns es size} (w : g.WF) (r : Grown g g' ns es size) : Has g' ns es := by
  have f := wf_names w r
  constructor
  · intro x hx
    rw [r.nodes, Dict.get?_append_right (f x hx), get?_of_mem_nodup r.nodup hx]
  · intro x hx
    show outsOf g'.edges x.1 = _
    rw [r.edges, outsOf_append, outsOf_nil_of, List.nil_append]
    intro e he ee
    have := (w.ends e he).1
    rw [ee, f x hx] at this; simp at this

/-- The node of the signal itself. -/
theorem root_wf (c : GCfg) {g : Graph} (w : g.WF) (signal : Str) :
    let root := graphName signal g.counter
    let g1 := (g.rename signal).2.addNode c root (some signal) .black
    g1.nodes = g.nodes ++ [(root, some signal, some .black)] ∧ g1.edges = g.edges ∧ g1.WF ∧ g.nodes.has root = false := by
  intro root g1
  have hf : g.nodes.has root = false := w.fresh signal g.counter (le_refl _)
  have e0 : g1.nodes = g.nodes ++ [(root, some signal, some .black)] := by
    show Dict.set g.nodes root _ = _
    rw [Dict.set_fresh hf]
    cases h : c.withcolor <;> simp [GCfg.paint, h]
  refine ⟨e0, rfl, ⟨?_, ?_⟩, hf⟩
  · intro e he
    have := w.ends e he
    rw [e0, Dict.has_append, Dict.has_append, this.1, this.2]; simp
  · intro l k hk
    have hk : g.counter + 1 ≤ k := hk
    rw [e0, Dict.has_append, w.fresh l k (by omega), Bool.false_or]
    simp only [Dict.has, List.any_cons, List.any_nil, Bool.or_false, decide_eq_false_iff_not]
    intro e
    have := graphName_inj (l := signal) (k := g.counter) e
    omega

/-- **C82, one node per occurrence** (`generate(signal, identical=True)`): whatever was drawn before, the drawing of a
signal leaves every earlier node and line alone and adds one node for the signal plus one for each node of the tree;
the signal's node shows the signal's name, exactly one line leads from it, to the drawing of the tree; the new names
are distinct, were not in use, and each new node below the signal's node has exactly one line leading to it, from a new
node. -/
theorem C82_graph_shows_tree {S : MergeEnv} {opt fuel wc} {g g' : Graph} {signal n} {o : GOpts} (hi : o.identical = true)
    (w : g.WF) (h : S.generateGraph opt fuel wc g signal n o = .ok g') :
    ∃ t root ns es, S.graphTree opt fuel n o = .ok t ∧
      g'.nodes = g.nodes ++ (root, some signal, some .black) :: ns ∧ g'.edges = g.edges ++ es ∧
      ns.length = t.count ∧ (root :: ns.map (·.1)).Nodup ∧ (∀ x ∈ root :: ns.map (·.1), g.nodes.has x = false) ∧
      es.map (·.1.2) = ns.map (·.1) ∧ (∀ e ∈ es, e.1.1 ∈ root :: ns.map (·.1)) ∧
      Graph.ShowsAll ⟨true, wc⟩ g' (g'.outs root) [(none, .black, t)] ∧ g'.WF := by
  unfold MergeEnv.generateGraph at h
  obtain ⟨t, ht, h⟩ := bind_ok.mp h
  rw [hi] at h
  set c : GCfg := ⟨true, wc⟩ with hc
  obtain ⟨e0, e1, w1, hr⟩ := root_wf c w signal
  have hp1 : ((g.rename signal).2.addNode c (graphName signal g.counter) (some signal) .black).nodes.has (graphName signal g.counter) = true := by
    rw [e0, Dict.has_append]; simp [Dict.has]
  have d := visit_drawn (c := c) rfl t (graphTree_whole ht) w1 hp1 h
  obtain ⟨w2, hp2⟩ := d.wf w1 hp1
  obtain ⟨ns, es, r, hs, hh⟩ := d
  have f := wf_names w1 r
  have hroot : ∀ x ∈ ns, x.1 ≠ graphName signal g.counter := by
    intro x hx e
    have := f x hx
    rw [e, hp1] at this; simp at this
  refine ⟨t, graphName signal g.counter, ns, es, ht, ?_, ?_, ?_, ?_, ?_, r.targets, ?_, ?_, w2⟩
  · rw [r.nodes, e0]; simp
  · rw [r.edges, e1]
  · rw [r.size]; rfl
  · rw [List.nodup_cons]
    refine ⟨?_, r.nodup⟩
    intro hm
    obtain ⟨x, hx, e⟩ := List.mem_map.mp hm
    exact hroot x hx e
  · intro x hx
    rcases List.mem_cons.mp hx with rfl | hx
    · exact hr
    · obtain ⟨y, hy, rfl⟩ := List.mem_map.mp hx
      have := f y hy
      rw [e0, Dict.has_append, Bool.or_eq_false_iff] at this
      exact this.1
  · intro e he
    rcases hs e he with h1 | h1
    · rw [h1]; simp
    · exact List.mem_cons_of_mem _ h1
  · have : g'.outs (graphName signal g.counter) = outsOf es (graphName signal g.counter) := by
      show outsOf g'.edges _ = _
      rw [r.edges, e1, outsOf_append, outsOf_nil_of, List.nil_append]
      intro e he ee
      have := (w.ends e he).1
      rw [ee, hr] at this; simp at this
    rw [this]
    exact hh g' (r.has w1)

/-- **C82, errors**: a signal without a dataflow (no binding, or a binding without a tree) cannot be drawn: `generate` raises
DefinitionError and draws nothing. -/
theorem C82_undefined {S : MergeEnv} {opt fuel wc} {g : Graph} {signal n} {o : GOpts} (h : S.getTree n .none = .ok .none) :
    S.generateGraph opt fuel wc g signal n o = .error .definition := by
  unfold MergeEnv.generateGraph MergeEnv.graphTree
  rw [h]
  rfl

/-- The graph a new generator starts with. -/
def emptyGraph : Graph := ⟨[], [], 0⟩

theorem emptyGraph_wf : emptyGraph.WF := ⟨by simp [emptyGraph], fun _ _ _ => rfl⟩

end Pyv
