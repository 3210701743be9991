import Verif.Fsm
import Verif.Util
import Mathlib.Data.List.Chain
import Mathlib.Data.List.Rotate
import Mathlib.Order.Basic
/-
  C24, C25, C26: the loops reported by FiniteStateMachine.get_loop.
-/
namespace Pyv

/-! ### Specification -/

/-- State `s` has a transition (under some condition) to `d`. -/
def Fsm.Edge (m : Fsm) (s d : Int) : Prop := ∃ dd c, m.fsm.get? s = some dd ∧ (c, d) ∈ dd

/-- Each state of the list has a transition to the next one, and the last one to the first. -/
def Fsm.Cycle (m : Fsm) : List Int → Prop
  | [] => False
  | x :: q => List.IsChain m.Edge ((x :: q) ++ [x])

/-- All visits to a state are in consecutive positions. -/
def Consecutive : List Int → Prop
  | [] => True
  | x :: p => (x ∉ p ∨ p.head? = some x) ∧ Consecutive p

/-- The number of times the loops visit a state. -/
def visits (loops : List (List Int)) (k : Int) : Nat := (loops.map (fun l => l.count k)).sum

/-- The number of transitions of a state. -/
def Fsm.degree (m : Fsm) (k : Int) : Nat := ((m.fsm.get? k).getD []).length

/-! ### Lemmas: paths -/

theorem Fsm.mem_dsts {m : Fsm} {k d : Int} : (∃ next, m.dsts k = some next ∧ d ∈ next) ↔ m.Edge k d := by
  unfold Fsm.dsts Fsm.Edge
  cases m.fsm.get? k with
  | none => simp
  | some dd => simp

theorem minOf_mem {p : List Int} (h : p ≠ []) : minOf p ∈ p := by
  induction p with
  | nil => exact absurd rfl h
  | cons x p ih =>
    cases p with
    | nil => simp [minOf]
    | cons y p =>
      simp only [minOf]
      rcases Int.min_def x (minOf (y :: p)) ▸ (by split <;> simp : (if x ≤ minOf (y :: p) then x else minOf (y :: p)) = x ∨
        (if x ≤ minOf (y :: p) then x else minOf (y :: p)) = minOf (y :: p)) with e | e
      · rw [e]; simp
      · rw [e]; exact List.mem_cons_of_mem _ (ih (by simp))

theorem minOf_le {p : List Int} {x : Int} (h : x ∈ p) : minOf p ≤ x := by
  induction p with
  | nil => simp at h
  | cons y p ih =>
    cases p with
    | nil => simp at h; simp [minOf, h]
    | cons z p =>
      simp only [minOf]
      rcases List.mem_cons.mp h with rfl | h
      · exact Int.min_le_left ..
      · exact Int.le_trans (Int.min_le_right ..) (ih h)

/-- `rotate` cuts the path before the first visit of its smallest state. -/
theorem rotateLoop_split {p : List Int} (h : p ≠ []) : ∃ u v, p = u ++ v ∧ rotateLoop p = v ++ u ∧
    v.head? = some (minOf p) ∧ minOf p ∉ u := by
  have hm := minOf_mem h
  refine ⟨p.take (p.idxOf (minOf p)), p.drop (p.idxOf (minOf p)), (List.take_append_drop _ _).symm, rfl, ?_, ?_⟩
  · have hlt : p.idxOf (minOf p) < p.length := List.idxOf_lt_length_iff.mpr hm
    rw [List.head?_drop, List.getElem?_eq_getElem hlt, List.getElem_idxOf hlt]
  · generalize minOf p = x
    clear hm h
    induction p with
    | nil => simp
    | cons y p ih =>
      by_cases hy : y = x
      · subst hy; simp [List.idxOf_cons]
      · simp only [List.idxOf_cons, beq_iff_eq, hy, cond_eq_ite, if_false]
        simp only [List.take_succ_cons, List.mem_cons, not_or]
        exact ⟨fun e => hy e.symm, ih⟩

theorem cycle_split {m : Fsm} {u v : List Int} (hv : v ≠ []) (h : m.Cycle (u ++ v)) : m.Cycle (v ++ u) := by
  cases u with
  | nil => simpa using h
  | cons x u =>
    cases v with
    | nil => exact absurd rfl hv
    | cons y v =>
      simp only [Fsm.Cycle, List.cons_append] at h ⊢
      have h1 : List.IsChain m.Edge (((x :: u) ++ (y :: v)) ++ [x]) := by simpa using h
      have h2 : List.IsChain m.Edge (((y :: v) ++ (x :: u)) ++ [y]) := by
        rw [List.append_assoc, List.isChain_append] at h1
        obtain ⟨a, b, c⟩ := h1
        rw [List.isChain_append] at b
        obtain ⟨b1, _, b3⟩ := b
        rw [List.append_assoc, List.isChain_append]
        refine ⟨b1, ?_, ?_⟩
        · rw [List.isChain_append]
          refine ⟨a, by simp, ?_⟩
          intro s hs t ht
          simp at ht; subst ht
          exact c s hs y (by simp)
        · intro s hs t ht
          simp at ht; subst ht
          exact b3 s hs x (by simp)
      simpa using h2

theorem cycle_rotated {m : Fsm} {p r : List Int} (h : m.Cycle p) (hr : r ~r p) : m.Cycle r := by
  obtain ⟨n, hn, e⟩ := List.isRotated_iff_mod.mp hr.symm
  rw [List.rotate_eq_drop_append_take hn] at e
  by_cases hd : p.drop n = []
  · rw [hd] at e
    simp at e
    have : n = p.length := by
      simp at hd; omega
    subst this
    simp at e
    subst e
    exact h
  · rw [← e]
    apply cycle_split hd
    rw [List.take_append_drop]
    exact h

theorem looppath_spec {m : Fsm} {src : Int} : ∀ (fuel : Nat) (node : Int) (visited p : List Int),
    p ∈ m.looppath src fuel node visited →
    ∃ t, p = node :: t ∧ List.IsChain m.Edge p ∧ p.getLast? = some src ∧ Consecutive p ∧
      ∀ x ∈ p, x ≠ node → x ∉ visited := by
  intro fuel
  induction fuel with
  | zero => intro node visited p h; simp [Fsm.looppath] at h
  | succ fuel ih =>
    intro node visited p h
    unfold Fsm.looppath at h
    split at h
    · rename_i e
      subst e
      simp at h; subst h
      exact ⟨[], rfl, by simp, by simp, by simp [Consecutive], by simp⟩
    · rename_i hne
      cases hd : m.dsts node with
      | none => simp [hd] at h
      | some next =>
        simp only [hd, List.mem_flatMap, List.mem_filter, List.mem_map] at h
        obtain ⟨n, ⟨hn1, hn2⟩, q, hq, rfl⟩ := h
        obtain ⟨t, rfl, h1, h2, h3, h4⟩ := ih n (node :: visited) q hq
        have hnv : n ∉ visited := by simpa using hn2
        have hedge : m.Edge node n := Fsm.mem_dsts.mp ⟨next, hd, List.mem_eraseDups.mp hn1⟩
        refine ⟨n :: t, rfl, ?_, ?_, ?_, ?_⟩
        · simp only [List.isChain_cons_cons]; exact ⟨hedge, h1⟩
        · simpa [List.getLast?_cons_cons] using h2
        · refine ⟨?_, h3⟩
          by_cases e : n = node
          · right; simp [e]
          · left
            intro hm
            by_cases e' : node = n
            · exact e e'.symm
            · exact h4 node hm e' (by simp)
        · intro x hx hxn
          rcases List.mem_cons.mp hx with rfl | hx
          · exact absurd rfl hxn
          · by_cases e : x = n
            · subst e; exact hnv
            · have := h4 x hx e
              simp at this; exact this.2

theorem getLooppath_spec {m : Fsm} {src : Int} {p : List Int} (h : p ∈ m.getLooppath src) :
    m.Cycle p ∧ Consecutive p ∧ src ∈ p := by
  unfold Fsm.getLooppath at h
  cases hd : m.dsts src with
  | none => simp [hd] at h
  | some next =>
    simp only [hd, List.mem_eraseDups, List.mem_flatMap] at h
    obtain ⟨n, hn, hp⟩ := h
    obtain ⟨t, rfl, h1, h2, h3, _⟩ := looppath_spec 51 n [n] p hp
    refine ⟨?_, h3, List.mem_of_getLast? h2⟩
    simp only [Fsm.Cycle]
    rw [List.isChain_append]
    refine ⟨h1, by simp, ?_⟩
    intro x hx y hy
    simp at hy; subst hy
    rw [h2] at hx; simp at hx; subst hx
    exact Fsm.mem_dsts.mp ⟨next, hd, hn⟩

theorem consecutive_split {u v : List Int} {x : Int} (h : Consecutive (u ++ v)) (hv : v.head? = some x) (hx : x ∉ u) :
    Consecutive u ∧ Consecutive v ∧ ∀ y ∈ u, y ∉ v := by
  induction u with
  | nil => exact ⟨trivial, h, by simp⟩
  | cons z u ih =>
    simp only [List.mem_cons, not_or] at hx
    obtain ⟨h1, h2⟩ := h
    obtain ⟨i1, i2, i3⟩ := ih h2 hx.2
    have hz : z ∉ v := by
      rcases h1 with h1 | h1
      · intro hz; exact h1 (by simp [hz])
      · cases u with
        | nil => change v.head? = some z at h1; rw [hv] at h1; simp at h1; exact absurd h1 hx.1
        | cons w u =>
          simp at h1; subst h1
          exact i3 w (by simp)
    refine ⟨⟨?_, i1⟩, i2, ?_⟩
    · rcases h1 with h1 | h1
      · left; intro hm; exact h1 (by simp [hm])
      · cases u with
        | nil => left; simp
        | cons w u => right; simpa using h1
    · intro y hy
      rcases List.mem_cons.mp hy with rfl | hy
      · exact hz
      · exact i3 y hy

theorem consecutive_append {u v : List Int} (hu : Consecutive u) (hv : Consecutive v) (hd : ∀ y ∈ u, y ∉ v) :
    Consecutive (u ++ v) := by
  induction u with
  | nil => exact hv
  | cons z u ih =>
    obtain ⟨h1, h2⟩ := hu
    refine ⟨?_, ih h2 (fun y hy => hd y (by simp [hy]))⟩
    rcases h1 with h1 | h1
    · left
      change z ∉ u ++ v
      simp only [List.mem_append, not_or]
      exact ⟨h1, hd z (by simp)⟩
    · right
      cases u with
      | nil => simp at h1
      | cons w u => simpa using h1

/-- What holds of every recorded loop. -/
def GoodLoop (m : Fsm) (r : List Int) : Prop :=
  m.Cycle r ∧ Consecutive r ∧ ∃ x a t, r = List.replicate (a + 1) x ++ t ∧ ∀ y ∈ t, x < y

theorem block_split {v : List Int} {x : Int} (h : Consecutive v) (hv : v.head? = some x) :
    ∃ a t, v = List.replicate (a + 1) x ++ t ∧ x ∉ t := by
  induction v with
  | nil => simp at hv
  | cons z v ih =>
    simp at hv; subst hv
    obtain ⟨h1, h2⟩ := h
    rcases h1 with h1 | h1
    · exact ⟨0, v, by simp, h1⟩
    · obtain ⟨a, t, e, ht⟩ := ih h2 h1
      exact ⟨a + 1, t, by rw [e]; simp [List.replicate_succ], ht⟩

theorem goodLoop_rotate {m : Fsm} {p : List Int} (h1 : m.Cycle p) (h2 : Consecutive p) :
    GoodLoop m (rotateLoop p) ∧ rotateLoop p ~r p := by
  have hne : p ≠ [] := by rintro rfl; exact h1
  obtain ⟨u, v, e, er, hv, hu⟩ := rotateLoop_split hne
  have hvne : v ≠ [] := by rintro rfl; simp at hv
  rw [er]
  have hmin : ∀ x ∈ p, minOf p ≤ x := fun x hx => minOf_le hx
  generalize minOf p = k at *
  subst e
  obtain ⟨c1, c2, c3⟩ := consecutive_split h2 hv hu
  refine ⟨⟨cycle_split hvne h1, consecutive_append c2 c1 (fun y hy hy' => c3 y hy' hy), ?_⟩, List.isRotated_append⟩
  obtain ⟨a, t, rfl, ht⟩ := block_split c2 hv
  refine ⟨k, a, t ++ u, by simp, ?_⟩
  intro y hy
  rcases List.mem_append.mp hy with hy | hy
  · have := hmin y (by simp [hy])
    have : k ≠ y := by rintro rfl; exact ht hy
    omega
  · have := hmin y (by simp [hy])
    have : k ≠ y := by rintro rfl; exact hu hy
    omega

/-! ### Lemmas: the accumulation -/

theorem countNodes_get (l : List Int) : ∀ (cnt : Dict Int Nat) (k : Int),
    ((countNodes cnt l).get? k).getD 0 = (cnt.get? k).getD 0 + l.count k := by
  induction l with
  | nil => intro cnt k; simp [countNodes]
  | cons x l ih =>
    intro cnt k
    have : countNodes cnt (x :: l) = countNodes (Dict.set cnt x ((cnt.get? x).getD 0 + 1)) l := rfl
    rw [this, ih, Dict.get?_set]
    by_cases h : x = k
    · subst h; simp; omega
    · simp [h, List.count_cons]

/-- The invariant of the accumulation. -/
def LoopInv (m : Fsm) (st : List (List Int) × Dict Int Nat) : Prop :=
  (∀ r ∈ st.1, GoodLoop m r) ∧ st.1.Nodup ∧ ∀ k, (st.2.get? k).getD 0 = visits st.1 k

theorem recordLoops_spec {m : Fsm} : ∀ (ps : List (List Int)) (st : List (List Int) × Dict Int Nat),
    (∀ p ∈ ps, m.Cycle p ∧ Consecutive p) → LoopInv m st →
    LoopInv m (recordLoops ps st) ∧ (∃ new, (recordLoops ps st).1 = st.1 ++ new) ∧
      ∀ p ∈ ps, rotateLoop p ∈ (recordLoops ps st).1 := by
  intro ps
  induction ps with
  | nil => intro st _ h; exact ⟨h, ⟨[], by simp [recordLoops]⟩, by simp⟩
  | cons p ps ih =>
    intro st hp hinv
    obtain ⟨loops, cnt⟩ := st
    obtain ⟨i1, i2, i3⟩ := hinv
    simp only at i1 i2 i3
    obtain ⟨c1, c2⟩ := hp p (by simp)
    have hp' : ∀ q ∈ ps, m.Cycle q ∧ Consecutive q := fun q hq => hp q (by simp [hq])
    simp only [recordLoops]
    split
    · rename_i hc
      obtain ⟨a, ⟨new, e⟩, c⟩ := ih (loops, cnt) hp' ⟨i1, i2, i3⟩
      refine ⟨a, ⟨new, e⟩, ?_⟩
      intro q hq
      rcases List.mem_cons.mp hq with rfl | hq
      · rw [e]; simp only [List.mem_append]; left; simpa using hc
      · exact c q hq
    · rename_i hc
      have hc' : rotateLoop p ∉ loops := by simpa using hc
      obtain ⟨a, ⟨new, e⟩, c⟩ := ih (loops ++ [rotateLoop p], countNodes cnt (rotateLoop p)) hp' (by
        refine ⟨?_, ?_, ?_⟩
        · intro r hr
          rcases List.mem_append.mp hr with hr | hr
          · exact i1 r hr
          · simp at hr; subst hr; exact (goodLoop_rotate c1 c2).1
        · rw [List.nodup_append]
          refine ⟨i2, by simp, ?_⟩
          intro x hx y hy
          simp at hy; subst hy
          rintro rfl; exact hc' hx
        · intro k
          simp only [countNodes_get, i3, visits, List.map_append, List.sum_append]
          simp)
      refine ⟨a, ⟨rotateLoop p :: new, by rw [e]; simp⟩, ?_⟩
      intro q hq
      rcases List.mem_cons.mp hq with rfl | hq
      · rw [e]; simp
      · exact c q hq

theorem visits_append (a b : List (List Int)) (k : Int) : visits (a ++ b) k = visits a k + visits b k := by
  simp [visits]

theorem loopRound_spec {m : Fsm} {st : List (List Int) × Dict Int Nat} (k : Int) (h : LoopInv m st) :
    LoopInv m (m.loopRound st k) ∧ (∃ new, (m.loopRound st k).1 = st.1 ++ new) ∧
      ((∀ p ∈ m.getLooppath k, rotateLoop p ∈ (m.loopRound st k).1) ∨ m.degree k ≤ visits st.1 k) := by
  unfold Fsm.loopRound
  cases hd : m.dsts k with
  | none =>
    refine ⟨h, ⟨[], by simp⟩, .inl ?_⟩
    simp [Fsm.getLooppath, hd]
  | some next =>
    have hdeg : m.degree k = next.length := by
      unfold Fsm.dsts at hd
      unfold Fsm.degree
      cases hg : m.fsm.get? k with
      | none => simp [hg] at hd
      | some dd => simp [hg] at hd; subst hd; simp
    simp only
    split
    · rename_i hc
      refine ⟨h, ⟨[], by simp⟩, .inr ?_⟩
      rw [h.2.2 k] at hc
      omega
    · obtain ⟨a, b, c⟩ := recordLoops_spec (m := m) (m.getLooppath k) st
        (fun p hp => ⟨(getLooppath_spec hp).1, (getLooppath_spec hp).2.1⟩) h
      exact ⟨a, b, .inl c⟩

theorem rounds_spec {m : Fsm} : ∀ (ks : List Int) (st : List (List Int) × Dict Int Nat), LoopInv m st →
    LoopInv m (ks.foldl m.loopRound st) ∧ (∃ new, (ks.foldl m.loopRound st).1 = st.1 ++ new) ∧
      ∀ k ∈ ks, (∀ p ∈ m.getLooppath k, rotateLoop p ∈ (ks.foldl m.loopRound st).1) ∨
        m.degree k ≤ visits (ks.foldl m.loopRound st).1 k := by
  intro ks
  induction ks with
  | nil => intro st h; exact ⟨h, ⟨[], by simp⟩, by simp⟩
  | cons k ks ih =>
    intro st h
    obtain ⟨a, ⟨n1, e1⟩, c⟩ := loopRound_spec k h
    obtain ⟨a', ⟨n2, e2⟩, c'⟩ := ih (m.loopRound st k) a
    simp only [List.foldl_cons]
    refine ⟨a', ⟨n1 ++ n2, by rw [e2, e1]; simp⟩, ?_⟩
    intro q hq
    rcases List.mem_cons.mp hq with rfl | hq
    · rcases c with c | c
      · left
        intro p hp
        rw [e2]
        exact List.mem_append_left _ (c p hp)
      · right
        rw [e2, e1, visits_append, visits_append]
        omega
    · exact c' q hq

theorem mem_sortOn {α : Type} {key : α → Int} {l : List α} {x : α} : x ∈ sortOn key l ↔ x ∈ l := by
  have ins : ∀ (y : α) (l : List α), x ∈ insertOn key y l ↔ x = y ∨ x ∈ l := by
    intro y l
    induction l with
    | nil => simp [insertOn]
    | cons z l ih =>
      simp only [insertOn]
      split
      · simp
      · simp only [List.mem_cons, ih]; tauto
  induction l with
  | nil => simp [sortOn]
  | cons a l ih =>
    have : sortOn key (a :: l) = insertOn key a (sortOn key l) := rfl
    rw [this]
    exact (ins a _).trans ⟨fun h => h.elim (fun e => by simp [e]) (fun h => List.mem_cons_of_mem _ (ih.mp h)),
      fun h => (List.mem_cons.mp h).imp id ih.mpr⟩

theorem getLoop_spec (m : Fsm) : (∀ r ∈ m.getLoop, GoodLoop m r) ∧ m.getLoop.Nodup ∧
    ∀ k, (∃ d, m.Edge k d) → (∀ p ∈ m.getLooppath k, rotateLoop p ∈ m.getLoop) ∨ m.degree k ≤ visits m.getLoop k := by
  obtain ⟨⟨a, b, _⟩, _, c⟩ := rounds_spec (m := m) (sortOn id (m.fsm.map (·.1))) ([], [])
    ⟨by simp, by simp, by simp [visits, Dict.get?_nil]⟩
  refine ⟨a, b, ?_⟩
  rintro k ⟨d, dd, _, h, _⟩
  refine c k (mem_sortOn.mpr ?_)
  exact List.mem_map.mpr ⟨(k, dd), Dict.mem_of_get? h, rfl⟩

/-! ### C24 -/

/-- **C24** Every reported loop is a cycle of the transition graph: each state has a transition to the next, and the
last one to the first. -/
theorem C24_loops_are_cycles (m : Fsm) (l : List Int) (h : l ∈ m.getLoop) : m.Cycle l :=
  ((getLoop_spec m).1 l h).1

/-- **C24** In a reported loop, the visits of a state follow each other directly. -/
theorem C24_visits_consecutive (m : Fsm) (l : List Int) (h : l ∈ m.getLoop) : Consecutive l :=
  ((getLoop_spec m).1 l h).2.1

theorem nodup_of_consecutive {m : Fsm} (hm : ∀ s, ¬ m.Edge s s) : ∀ (l : List Int), Consecutive l →
    List.IsChain m.Edge l → l.Nodup := by
  intro l
  induction l with
  | nil => simp
  | cons x l ih =>
    rintro ⟨h1, h2⟩ hc
    rw [List.nodup_cons]
    refine ⟨?_, ih h2 hc.tail⟩
    rcases h1 with h1 | h1
    · exact h1
    · cases l with
      | nil => simp at h1
      | cons y l =>
        simp at h1; subst h1
        rw [List.isChain_cons_cons] at hc
        exact absurd hc.1 (hm y)

/-- **C24** The reported loops are simple cycles, when no state has a transition to itself.  Missing, because the code
differs: states with a transition to themselves (`C24_not_simple`). -/
theorem C24_simple_partial (m : Fsm) (hm : ∀ s, ¬ m.Edge s s) (l : List Int) (h : l ∈ m.getLoop) : l.Nodup := by
  obtain ⟨h1, h2, _⟩ := (getLoop_spec m).1 l h
  refine nodup_of_consecutive hm l h2 ?_
  cases l with
  | nil => simp
  | cons x q =>
    simp only [Fsm.Cycle] at h1
    exact (List.isChain_append.mp h1).1

/-- A state machine from its (unconditional) transitions. -/
def fsmOf (es : List (Int × List Int)) : Fsm :=
  { fsm := es.map (fun e => (e.1, (e.2.zipIdx).map (fun d => (some (.term [⟨(toString d.2).toList, .signal, none⟩]), d.1)))) }

/-- **C24** is false of the code: on `0 → 1`, `1 → 2`, `2 → 2` and `2 → 0` the walk `0 1 2 2` is reported as a
loop. -/
theorem C24_not_simple : [0, 1, 2, 2] ∈ (fsmOf [(0, [1]), (1, [2]), (2, [2, 0])]).getLoop := by decide +kernel

/-! ### C25 -/

/-- **C25** Every reported loop starts with its smallest state. -/
theorem C25_starts_with_smallest (m : Fsm) (l : List Int) (h : l ∈ m.getLoop) : ∃ x t, l = x :: t ∧ ∀ y ∈ l, x ≤ y := by
  obtain ⟨_, _, x, a, t, rfl, ht⟩ := (getLoop_spec m).1 l h
  refine ⟨x, List.replicate a x ++ t, by simp [List.replicate_succ], ?_⟩
  intro y hy
  rcases List.mem_append.mp hy with hy | hy
  · have := List.eq_of_mem_replicate hy; omega
  · have := ht y hy; omega

/-- **C25** No loop is reported twice, nor two loops that are rotations of one another. -/
theorem C25_no_rotations (m : Fsm) : m.getLoop.Nodup ∧
    ∀ l₁ ∈ m.getLoop, ∀ l₂ ∈ m.getLoop, l₁ ~r l₂ → l₁ = l₂ := by
  refine ⟨(getLoop_spec m).2.1, ?_⟩
  intro l₁ h1 l₂ h2 hr
  obtain ⟨_, _, x, a, t, e1, ht⟩ := (getLoop_spec m).1 l₁ h1
  obtain ⟨_, _, y, b, s, e2, hs⟩ := (getLoop_spec m).1 l₂ h2
  have hmem := fun z => hr.mem_iff (a := z)
  have hxy : x = y := by
    have hx : x ∈ l₂ := (hmem x).mp (by rw [e1]; simp)
    have hy : y ∈ l₁ := (hmem y).mpr (by rw [e2]; simp)
    have h3 : x ≤ y := by
      rw [e1] at hy
      rcases List.mem_append.mp hy with hy | hy
      · have := List.eq_of_mem_replicate hy; omega
      · have := ht y hy; omega
    have h4 : y ≤ x := by
      rw [e2] at hx
      rcases List.mem_append.mp hx with hx | hx
      · have := List.eq_of_mem_replicate hx; omega
      · have := hs x hx; omega
    omega
  subst hxy
  have hc : a = b := by
    have := hr.perm.count_eq x
    rw [e1, e2] at this
    have hxt : x ∉ t := fun h => by have := ht x h; omega
    have hxs : x ∉ s := fun h => by have := hs x h; omega
    simpa [List.count_append, List.count_replicate, List.count_eq_zero_of_not_mem hxt, List.count_eq_zero_of_not_mem hxs] using this
  subst hc
  obtain ⟨n, hn, e⟩ := List.isRotated_iff_mod.mp hr
  rw [List.rotate_eq_drop_append_take hn] at e
  by_cases hna : n < a + 1
  · -- the cut is inside the block
    rw [e1, List.drop_append_of_le_length (by simp; omega), List.take_append_of_le_length (by simp; omega), e2,
      List.drop_replicate, List.take_replicate, List.append_assoc] at e
    by_cases hn0 : n = 0
    · subst hn0; simp at e; rw [e1, e2, e]
    · have hlen : a + 1 - n = (a - n) + 1 := by omega
      have : List.replicate (a + 1) x = List.replicate (a + 1 - n) x ++ List.replicate n x := by
        rw [List.replicate_append_replicate]; congr 1; omega
      rw [this, List.append_assoc, List.append_cancel_left_eq, Nat.min_eq_left (by omega)] at e
      cases t with
      | nil =>
        have := congrArg List.length e
        simp at this
        have : s = [] := by simpa using this
        rw [e1, e2, this]
      | cons z t =>
        have hz := ht z (by simp)
        obtain ⟨n', rfl⟩ := Nat.exists_eq_succ_of_ne_zero hn0
        simp [List.replicate_succ] at e
        omega
  · -- the cut is after the block
    have hnl : ¬ n < l₁.length → l₁ = l₂ := by
      intro h
      have : n = l₁.length := by omega
      subst this
      simpa using e
    by_cases hlt : n < l₁.length
    · rw [e1] at e hlt
      rw [List.drop_append, List.drop_of_length_le (by simp; omega)] at e
      simp only [List.length_replicate, List.nil_append] at e
      have hne : t.drop (n - (a + 1)) ≠ [] := by
        simp at hlt ⊢; omega
      cases hd : t.drop (n - (a + 1)) with
      | nil => exact absurd hd hne
      | cons z r =>
        rw [hd, e2] at e
        simp [List.replicate_succ] at e
        have : z ∈ t := List.mem_of_mem_drop (by rw [hd]; simp)
        have := ht z this
        omega
    · exact hnl hlt

/-! ### C26 -/

theorem looppath_complete {m : Fsm} {src : Int} : ∀ (t : List Int) (node : Int) (visited : List Int) (fuel : Nat),
    List.IsChain m.Edge (node :: t) → (node :: t).getLast? = some src → (node :: t).Nodup → (∀ x ∈ t, x ∉ visited) →
    t.length < fuel → node :: t ∈ m.looppath src fuel node visited := by
  intro t
  induction t with
  | nil =>
    intro node visited fuel _ hl _ _ hf
    obtain ⟨f, rfl⟩ := Nat.exists_eq_succ_of_ne_zero (by omega : fuel ≠ 0)
    simp at hl; subst hl
    simp [Fsm.looppath]
  | cons n t ih =>
    intro node visited fuel hc hl hn hv hf
    obtain ⟨f, rfl⟩ := Nat.exists_eq_succ_of_ne_zero (by omega : fuel ≠ 0)
    rw [List.isChain_cons_cons] at hc
    rw [List.getLast?_cons_cons] at hl
    rw [List.nodup_cons] at hn
    have hne : src ≠ node := by
      rintro rfl
      exact hn.1 (List.mem_of_getLast? hl)
    obtain ⟨next, hd, hm⟩ := Fsm.mem_dsts.mpr hc.1
    simp only [Nat.succ_eq_add_one, Fsm.looppath, hne, if_false, hd, List.mem_flatMap, List.mem_filter, List.mem_map]
    refine ⟨n, ⟨List.mem_eraseDups.mpr hm, by simpa using hv n (by simp)⟩, n :: t, ?_, rfl⟩
    refine ih n (node :: visited) f hc.2 hl hn.2 ?_ (by simp at hf; omega)
    intro x hx
    simp only [List.mem_cons, not_or]
    exact ⟨fun e => hn.1 (by rw [← e]; simp [hx]), hv x (by simp [hx])⟩

/-- **C26** From each state the search finds every simple cycle through it of at most 51 states. -/
theorem C26_search_complete (m : Fsm) (p : List Int) (k : Int) (hc : m.Cycle (p ++ [k])) (hn : (p ++ [k]).Nodup)
    (hl : (p ++ [k]).length ≤ 51) : p ++ [k] ∈ m.getLooppath k := by
  cases hp : p ++ [k] with
  | nil => simp at hp
  | cons n t =>
    have hlast : (n :: t).getLast? = some k := by rw [← hp]; simp
    rw [hp] at hc hn hl
    simp only [Fsm.Cycle] at hc
    have hchain := (List.isChain_append.mp hc).1
    have hedge : m.Edge k n := (List.isChain_append.mp hc).2.2 k (by rw [hlast]; simp) n (by simp)
    obtain ⟨next, hd, hm⟩ := Fsm.mem_dsts.mpr hedge
    simp only [Fsm.getLooppath, hd, List.mem_eraseDups, List.mem_flatMap]
    refine ⟨n, hm, looppath_complete t n [n] 51 hchain hlast hn ?_ (by simp at hl; omega)⟩
    intro x hx
    rw [List.nodup_cons] at hn
    simp only [List.mem_singleton]
    rintro rfl; exact hn.1 hx

/-- **C26** Every simple cycle of at most 51 states is reported (up to rotation), unless each of its states is already
visited by reported loops at least as often as it has transitions.  Missing, because the code differs: the cycles
whose states are all visited often enough (`C26_pruned_false`) and longer ones (`C26_long_false`). -/
theorem C26_complete_partial (m : Fsm) (p : List Int) (hc : m.Cycle p) (hn : p.Nodup) (hl : p.length ≤ 51) :
    (∃ l ∈ m.getLoop, l ~r p) ∨ ∀ k ∈ p, m.degree k ≤ visits m.getLoop k := by
  by_contra hcon
  push Not at hcon
  obtain ⟨h1, k, hk, h2⟩ := hcon
  obtain ⟨u, v, rfl⟩ := List.append_of_mem hk
  have e : (v ++ u) ++ [k] ~r u ++ k :: v := by
    have : u ++ k :: v = (u ++ [k]) ++ v := by simp
    rw [this, List.append_assoc]
    exact List.isRotated_append
  have hc' := cycle_rotated hc e
  have hn' := e.nodup_iff.mpr hn
  have hmem := C26_search_complete m (v ++ u) k hc' hn' (by rw [e.perm.length_eq]; exact hl)
  have hedge : ∃ d, m.Edge k d := by
    obtain ⟨g1, _, _⟩ := getLooppath_spec hmem
    unfold Fsm.getLooppath at hmem
    cases hd : m.dsts k with
    | none => simp [hd] at hmem
    | some next =>
      simp only [hd, List.mem_eraseDups, List.mem_flatMap] at hmem
      obtain ⟨n, hn, _⟩ := hmem
      exact ⟨n, Fsm.mem_dsts.mp ⟨next, hd, hn⟩⟩
  rcases (getLoop_spec m).2.2 k hedge with h | h
  · have hr := goodLoop_rotate hc' (getLooppath_spec hmem).2.1
    exact h1 _ (h _ hmem) (hr.2.trans e)
  · omega

/-- **C26** is false of the code: on `0 → 1, 2`, `1 → 2`, `2 → 0, 1` the cycle `1 2` is not reported. -/
theorem C26_pruned_false : (fsmOf [(0, [1, 2]), (1, [2]), (2, [0, 1])]).Cycle [1, 2] ∧
    ∀ l ∈ (fsmOf [(0, [1, 2]), (1, [2]), (2, [0, 1])]).getLoop, ¬ (l ~r [1, 2]) := by
  refine ⟨?_, ?_⟩
  · have e1 : (fsmOf [(0, [1, 2]), (1, [2]), (2, [0, 1])]).Edge 1 2 := Fsm.mem_dsts.mp ⟨[2], by decide +kernel, by decide⟩
    have e2 : (fsmOf [(0, [1, 2]), (1, [2]), (2, [0, 1])]).Edge 2 1 := Fsm.mem_dsts.mp ⟨[0, 1], by decide +kernel, by decide⟩
    simp only [Fsm.Cycle, List.cons_append, List.nil_append, List.isChain_cons_cons]
    exact ⟨e1, e2, by simp⟩
  · have : (fsmOf [(0, [1, 2]), (1, [2]), (2, [0, 1])]).getLoop = [[0, 1, 2], [0, 2]] := by decide +kernel
    rw [this]
    decide

/-- The ring `0 → 1 → … → 51 → 0` of 52 states. -/
def ring52 : Fsm := fsmOf ((List.range 52).map (fun (i : Nat) => ((i : Int), [((i + 1) % 52 : Nat)])))

/-- **C26** is false of the code: a ring of 52 states has no reported loop. -/
theorem C26_long_false : (∀ i : Nat, i < 52 → ring52.dsts i = some [(((i + 1) % 52 : Nat) : Int)]) ∧ ring52.getLoop = [] := by
  constructor
  · decide +kernel
  · decide +kernel

/-- **C26** is false of the code: transitions taken from any state are not part of the search.  The machine has a
transition `0 → 1` and one from any state to `0`: the state 0 can stay in 0, and no loop is reported. -/
theorem C26_any_false : ∃ m : Fsm, (∃ dd, m.fsm.get? 0 = some dd) ∧ (none, 0) ∈ m.any ∧ m.getLoop = [] :=
  ⟨{ fsm := [(0, [(some (.term [⟨['a'], .signal, none⟩]), 1)])], any := [(none, 0)] }, ⟨_, rfl⟩, by simp, by decide +kernel⟩

/-- Non-vacuity: a machine with two loops. -/
example : (fsmOf [(3, [4]), (4, [5, 3]), (5, [3])]).getLoop = [[3, 4, 5], [3, 4]] ∨
    (fsmOf [(3, [4]), (4, [5, 3]), (5, [3])]).getLoop = [[3, 4], [3, 4, 5]] := by decide +kernel

end Pyv
