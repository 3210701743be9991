import Verif.Merge
import Verif.Util
import Verif.Sem
import Verif.Props.MergedTree
/-
  C50: reading an array whose elements are assigned one by one.
-/
namespace Pyv

/-- An assignment of element `v` of the array `n`. -/
def Bind.Elem (b : Bind) (n : ScopeChain) (v : Int) : Prop :=
  b.dest = n ∧ b.msb = .none ∧ b.lsb = .none ∧ ∃ w x y, b.ptr = .ev (.int v) w x y

theorem Bind.Elem.inj {b : Bind} {n n' : ScopeChain} {v v' : Int} (h : b.Elem n v) (h' : b.Elem n' v') : v = v' := by
  obtain ⟨_, _, _, _, _, _, e⟩ := h
  obtain ⟨_, _, _, _, _, _, e'⟩ := h'
  rw [e] at e'; simp at e'; exact e'.1

/-- Simplification leaves constants (and absent nodes) alone. -/
def OptStable (S : MergeEnv) : Prop := S.opt .none = .ok .none ∧ ∀ v w x y, S.opt (.ev v w x y) = .ok (.ev v w x y)

theorem optStable_real (ctx : OptCtx) (k level : Nat) (b rb : Dict ScopeChain (List Bind)) :
    OptStable (mergeEnvOf ctx (k + 1) level b rb) := by
  have h1 : ∀ n, ctx.optimize (k + 1) n .none = .ok .none := by
    intro n; induction n with
    | zero => rfl
    | succ n ih => exact ih
  have h2 : ∀ v w x y n, ctx.optimize (k + 1) n (.ev v w x y) = .ok (.ev v w x y) := by
    intro v w x y n; induction n with
    | zero => rfl
    | succ n ih => exact ih
  exact ⟨h1 _, fun v w x y => h2 v w x y _⟩

/-- `n` is declared as an array with elements of constant range. -/
def MergeEnv.ArrayTerm (S : MergeEnv) (n : ScopeChain) : Prop :=
  ∃ t m l m' l' mv lv, S.terms.get? n = some t ∧ t.dims.isSome = true ∧
    S.optc t.msb = .ok m ∧ S.optc t.lsb = .ok l ∧ m.intAttr = .ok mv ∧ l.intAttr = .ok lv ∧
    S.opt t.msb = .ok m' ∧ S.opt t.lsb = .ok l' ∧ m'.intAttr = .ok mv ∧ l'.intAttr = .ok lv

/-- No two assignments of the list are to the same element. -/
def DistinctElems (n : ScopeChain) (bs : List Bind) : Prop :=
  bs.Pairwise (fun a b => ∀ v v', a.Elem n v → b.Elem n v' → v ≠ v')

theorem splitFold_elems {S : MergeEnv} (hS : ConstStable S) {n : ScopeChain} (hn : S.ArrayTerm n) : ∀ (bs : List Bind) (done : List Rng),
    (∀ b ∈ bs, ∃ v, b.Elem n v) → DistinctElems n bs →
    (∀ r ∈ done, ∀ b ∈ bs, ∀ v, b.Elem n v → r.2.2 ≠ some v) →
    ∃ d, bs.foldlM S.splitRound ([], done) = .ok ([], d) := by
  intro bs
  induction bs with
  | nil => intro done _ _ _; exact ⟨done, rfl⟩
  | cons b bs ih =>
    intro done hb hd hdone
    obtain ⟨v, hv⟩ := hb b (by simp)
    obtain ⟨e1, e2, e3, w, x, y, e4⟩ := id hv
    obtain ⟨t, m, l, m', l', mv, lv, ht, _, hm, hl, hmv, hlv, _⟩ := id hn
    have hmat : matchedRange done mv lv (some v) = [] := by
      unfold matchedRange
      rw [List.flatMap_eq_nil_iff]
      rintro ⟨a, c, p⟩ hr
      have := hdone _ hr b (by simp) v hv
      simp only [matchOne]
      rw [if_pos ⟨by simp, this⟩]
    have hun : unmatchedRange [] mv lv (some v) = [(mv, lv, some v)] := rfl
    have step : S.splitRound ([], done) b = .ok ([], done ++ [(mv, lv, some v)]) := by
      simp only [MergeEnv.splitRound, e2, e3, e4, hS.1, hS.2, ok_bind, MergeEnv.constRange, and_self, if_true, MergeEnv.termRange, e1, ht,
        hm, hl, hmv, hlv, PyVal.toInt, splitStep, hmat, hun, positionsFromRange, ne_eq, not_true_eq_false, and_false, if_false]
      rfl
    rw [List.foldlM_cons, step, ok_bind]
    unfold DistinctElems at hd
    rw [List.pairwise_cons] at hd
    refine ih _ (fun c hc => hb c (by simp [hc])) hd.2 ?_
    intro r hr c hc v' hv'
    rcases List.mem_append.mp hr with hr | hr
    · exact hdone r hr c (by simp [hc]) v' hv'
    · simp only [List.mem_singleton] at hr
      subst hr
      have := hd.1 c hc v v' hv hv'
      simpa using this

theorem sortOn_nil {α : Type} (key : α → Int) : sortOn key ([] : List α) = [] := rfl

theorem splitBindlist_nil {S : MergeEnv} (bs : List Bind) : S.splitBindlist [] bs = .ok bs := by
  induction bs with
  | nil => rfl
  | cons b bs ih => simp only [MergeEnv.splitBindlist, MergeEnv.splitBindPositions, ih, ok_bind]; rfl

theorem mergeLoop_elems {S : MergeEnv} {n : ScopeChain} : ∀ (s acc : List Bind) (last : Option Bind),
    (∀ b ∈ last.toList ++ s, ∃ v, b.Elem n v) → DistinctElems n (last.toList ++ s) →
    S.mergeLoop acc last s = .ok (acc ++ last.toList ++ s) := by
  intro s
  induction s with
  | nil => intro acc last _ _; simp [MergeEnv.mergeLoop]
  | cons b s ih =>
    intro acc last hb hd
    cases last with
    | none =>
      rw [MergeEnv.mergeLoop, ih acc (some b) (by simpa using hb) (by simpa using hd)]
      simp
    | some p =>
      simp only [Option.toList, List.cons_append, List.nil_append] at hb hd
      obtain ⟨v, hv⟩ := hb p (by simp)
      obtain ⟨v', hv'⟩ := hb b (by simp)
      unfold DistinctElems at hd
      rw [List.pairwise_cons] at hd
      have hne := hd.1 b (by simp) v v' hv hv'
      obtain ⟨_, _, _, _, _, _, e⟩ := hv
      obtain ⟨_, _, _, _, _, _, e'⟩ := hv'
      have : sameRange p b = .ok false := by
        unfold sameRange
        simp only [e, e']
        rw [if_pos (by simpa using hne)]
      rw [MergeEnv.mergeLoop, this, ok_bind]
      simp only [Bool.false_eq_true, if_false]
      rw [ih (acc ++ [p]) (some b) (fun c hc => hb c (by simp at hc; simp [hc])) hd.2]
      simp

theorem optBind_elem {S : MergeEnv} (hS : OptStable S) {b : Bind} {n : ScopeChain} {v : Int} (h : b.Elem n v) {t : DF} (ht : S.opt b.tree = .ok t) :
    S.optBind b = .ok { b with tree := t } := by
  obtain ⟨e1, e2, e3, _, _, _, e4⟩ := h
  cases b with
  | mk tree dest msb lsb ptr param always =>
    simp only at e1 e2 e3 e4 ht
    subst e1 e2 e3 e4
    simp only [MergeEnv.optBind, ht, hS.1, hS.2, ok_bind]

/-- The simplified assignments of an array assigned element by element. -/
theorem optimizedBindlist_elems {S : MergeEnv} (hc : ConstStable S) (hS : OptStable S) {n : ScopeChain} (hn : S.ArrayTerm n) (bs : List Bind)
    (hb : ∀ b ∈ bs, ∃ v, b.Elem n v) (hd : DistinctElems n bs) (g : Bind → DF) (hg : ∀ b ∈ bs, S.opt b.tree = .ok (g b)) :
    ∃ rs, S.optimizedBindlist bs = .ok rs ∧ rs.Perm (bs.map (fun b => { b with tree := g b })) := by
  by_cases hnil : bs = []
  · subst hnil; exact ⟨[], rfl, .refl _⟩
  have hopt : bs.mapM S.optBind = .ok (bs.map (fun b => { b with tree := g b })) := by
    rw [mapM_ok, List.forall₂_map_right_iff, List.forall₂_same]
    intro b hb'
    obtain ⟨v, hv⟩ := hb b hb'
    exact optBind_elem hS hv (hg b hb')
  generalize hns : bs.map (fun b => ({ b with tree := g b } : Bind)) = ns at hopt
  have nel : ∀ b ∈ ns, ∃ v, b.Elem n v := by
    intro b hb'
    rw [← hns, List.mem_map] at hb'
    obtain ⟨c, hc', rfl⟩ := hb'
    exact hb c hc'
  have nd : DistinctElems n ns := by
    rw [← hns]
    unfold DistinctElems
    rw [List.pairwise_map]
    exact hd
  simp only [MergeEnv.optimizedBindlist, if_neg hnil, hopt, ok_bind]
  split
  · exact ⟨ns, rfl, .refl _⟩
  · obtain ⟨d, hd'⟩ := splitFold_elems hc hn ns [] nel nd (by simp)
    have hkeys : ∃ ks, ns.mapM S.bindKey = .ok ks := by
      clear hd' nd hopt hns
      rename_i hlen
      clear hlen
      induction ns with
      | nil => exact ⟨[], rfl⟩
      | cons b ns ih =>
        obtain ⟨ks, hks⟩ := ih (fun c hc => nel c (by simp [hc]))
        obtain ⟨v, e1, e2, e3, _, _, _, e4⟩ := nel b (by simp)
        obtain ⟨t, m, l, m', l', mv, lv, ht, _, _, _, _, _, h1, h2, h3, h4⟩ := hn
        have : S.bindKey b = .ok (v * (((mv - lv).natAbs : Int) + 1) + 0) := by
          simp only [MergeEnv.bindKey, e3, if_true, Bind.constPtr, e4, PyVal.toInt, ok_bind, e1, ht, h1, h2, h3, h4, Option.getD_some]
        exact ⟨_, by rw [List.mapM_cons, this, ok_bind, hks, ok_bind]; rfl⟩
    obtain ⟨ks, hks⟩ := hkeys
    have hp : (((sortOn (fun p => p.1) (ks.zip ns)).map (·.2)) : List Bind).Perm ns := by
      have h2 := (sortOn_perm (fun p : Int × Bind => p.1) (ks.zip ns)).map (·.2)
      rwa [(zip_map_snd (mapM_ok.mp hks)).1] at h2
    refine ⟨_, ?_, hp⟩
    simp only [MergeEnv.splitPositions, hd', ok_bind, sortOn_nil, splitBindlist_nil, MergeEnv.mergeBindlist, MergeEnv.sortBinds, hks]
    rw [mergeLoop_elems (n := n) _ [] none]
    · simp
    · intro b hb'
      exact nel b (hp.mem_iff.mp (by simpa using hb'))
    · exact hp.symm.pairwise nd (by intro a b hab v v' h1 h2; exact (hab v' v h2 h1).symm)

/-- The dictionary of the assignments by index. -/
theorem discrete_get? {n : ScopeChain} : ∀ (bs : List Bind) (d : Dict (Option PyVal) (List Bind)), (∀ b ∈ bs, ∃ v, b.Elem n v) →
    DistinctElems n bs → (∀ b ∈ bs, ∀ v, b.Elem n v → d.get? (some (.int v)) = none) →
    (∀ b ∈ bs, ∀ v, b.Elem n v → (discrete bs d).get? (some (.int v)) = some [b]) ∧
    (∀ k, (∀ b ∈ bs, ∀ v, b.Elem n v → k ≠ some (.int v)) → (discrete bs d).get? k = d.get? k) := by
  intro bs
  induction bs with
  | nil => intro d _ _ _; exact ⟨by simp, fun _ _ => rfl⟩
  | cons b bs ih =>
    intro d hb hd hdn
    obtain ⟨v, hv⟩ := hb b (by simp)
    obtain ⟨e1, e2, e3, w, x, y, e4⟩ := id hv
    unfold DistinctElems at hd
    rw [List.pairwise_cons] at hd
    have step : discrete (b :: bs) d = discrete bs (Dict.set d (some (.int v)) [b]) := by
      rw [discrete]
      simp only [e4, hdn b (by simp) v hv, Option.getD_none, List.nil_append]
    obtain ⟨i1, i2⟩ := ih (Dict.set d (some (.int v)) [b]) (fun c hc => hb c (by simp [hc])) hd.2 (by
      intro c hc v' hv'
      rw [Dict.get?_set, if_neg (by have := hd.1 c hc v v' hv hv'; simpa using this)]
      exact hdn c (by simp [hc]) v' hv')
    rw [step]
    constructor
    · intro c hc v' hv'
      rcases List.mem_cons.mp hc with e | hc'
      · rw [e] at hv' ⊢
        obtain rfl := hv.inj hv'
        rw [i2, Dict.get?_set, if_pos rfl]
        intro c' hc' v'' hv''
        have := hd.1 c' hc' v v'' hv hv''
        simpa using this
      · exact i1 c hc' v' hv'
    · intro k hk
      rw [i2 k (fun c hc => hk c (by simp [hc])), Dict.get?_set, if_neg (by have := hk b (by simp) v hv; exact fun h => this h.symm)]

theorem discrete_keys {n : ScopeChain} (bs : List Bind) (hb : ∀ b ∈ bs, ∃ v, b.Elem n v) (hd : DistinctElems n bs) :
    ∀ k ∈ (discrete bs []).map (·.1), ∃ b ∈ bs, ∃ v, b.Elem n v ∧ k = some (.int v) := by
  intro k hk
  by_contra hno
  push Not at hno
  have := (discrete_get? bs [] hb hd (by simp [Dict.get?_nil])).2 k (fun b hb' v hv => hno b hb' v hv)
  rw [Dict.get?_nil] at this
  have h2 : Dict.has (discrete bs []) k = true := by
    unfold Dict.has
    rw [List.any_eq_true]
    obtain ⟨p, hp, rfl⟩ := List.mem_map.mp hk
    exact ⟨p, hp, by simp⟩
  rw [Dict.has_eq, this] at h2
  simp at h2

theorem foldl_min_spec : ∀ (l : List Int) (a : Int), l.foldl min a ≤ a ∧ (∀ x ∈ l, l.foldl min a ≤ x) ∧ (l.foldl min a = a ∨ l.foldl min a ∈ l) := by
  intro l
  induction l with
  | nil => intro a; simp
  | cons y l ih =>
    intro a
    obtain ⟨h1, h2, h3⟩ := ih (min a y)
    rw [List.foldl_cons]
    refine ⟨by omega, ?_, ?_⟩
    · intro x hx
      rcases List.mem_cons.mp hx with rfl | hx
      · omega
      · exact h2 x hx
    · rcases h3 with h | h
      · rcases le_total a y with hay | hay
        · left; omega
        · right; rw [h]; simp; left; omega
      · right; simp [h]

theorem foldl_max_spec : ∀ (l : List Int) (a : Int), a ≤ l.foldl max a ∧ (∀ x ∈ l, x ≤ l.foldl max a) ∧ (l.foldl max a = a ∨ l.foldl max a ∈ l) := by
  intro l
  induction l with
  | nil => intro a; simp
  | cons y l ih =>
    intro a
    obtain ⟨h1, h2, h3⟩ := ih (max a y)
    rw [List.foldl_cons]
    refine ⟨by omega, ?_, ?_⟩
    · intro x hx
      rcases List.mem_cons.mp hx with rfl | hx
      · omega
      · exact h2 x hx
    · rcases h3 with h | h
      · rcases le_total a y with hay | hay
        · right; rw [h]; simp; left; omega
        · left; omega
      · right; simp [h]

/-- Everything `getTree` needs of an array assigned element by element. -/
theorem getTree_elems {S : MergeEnv} (hc : ConstStable S) (hS : OptStable S) {n : ScopeChain} (hn : S.ArrayTerm n) (bs : List Bind)
    (hr : S.rbinds.get? n = some bs) (hne : bs ≠ [])
    (hb : ∀ b ∈ bs, ∃ v, b.Elem n v) (hd : DistinctElems n bs) (g : Bind → DF) (hg : ∀ b ∈ bs, S.opt b.tree = .ok (g b)) (ptr : DF) :
    ∃ (d : Dict (Option PyVal) (List Bind)) (ks : List Int),
      (∀ b ∈ bs, ∀ v, b.Elem n v → d.get? (some (.int v)) = some [{ b with tree := g b }]) ∧
      (∀ v : Int, (∀ b ∈ bs, ¬ b.Elem n v) → d.get? (some (.int v)) = none) ∧
      (∀ v : Int, v ∈ ks ↔ ∃ b ∈ bs, b.Elem n v) ∧
      S.getTree n ptr = (match ptr with
        | .ev v _ _ _ => S.elementTree d v
        | _ => S.elementChain d ptr (intRange (ks.foldl min (ks.headD 0)) (ks.foldl max (ks.headD 0))) .none) := by
  obtain ⟨rs, h1, h2⟩ := optimizedBindlist_elems hc hS hn bs hb hd g hg
  have rel : ∀ b ∈ rs, ∃ v, b.Elem n v := by
    intro b hb'
    obtain ⟨c, hc', rfl⟩ := List.mem_map.mp (h2.mem_iff.mp hb')
    exact hb c hc'
  have rd : DistinctElems n rs := by
    refine h2.symm.pairwise ?_ (by intro a b hab v v' h1 h2; exact (hab v' v h2 h1).symm)
    rw [List.pairwise_map]
    exact hd
  obtain ⟨g1, g2⟩ := discrete_get? rs [] rel rd (by simp [Dict.get?_nil])
  have rne : rs ≠ [] := by
    rintro rfl
    have := h2.length_eq
    simp at this
    exact hne (List.length_eq_zero_iff.mp this.symm)
  have keys := discrete_keys rs rel rd
  have hno : Dict.has (discrete rs []) none = false := by
    rw [Dict.has_eq, g2 none (by simp)]; rfl
  have hkm : ∃ ks, ((discrete rs []).map (·.1)).mapM keyInt = .ok ks ∧
      ∀ v : Int, v ∈ ks ↔ some (PyVal.int v) ∈ (discrete rs []).map (·.1) := by
    generalize hkk : (discrete rs []).map (·.1) = kk at keys
    have : ∀ k ∈ kk, ∃ v : Int, k = some (.int v) := fun k hk => by
      obtain ⟨_, _, v, _, e⟩ := keys k hk; exact ⟨v, e⟩
    clear keys hkk
    induction kk with
    | nil => exact ⟨[], rfl, by simp⟩
    | cons k kk ih =>
      obtain ⟨ks, i1, i2⟩ := ih (fun k hk => this k (by simp [hk]))
      obtain ⟨v, rfl⟩ := this k (by simp)
      refine ⟨v :: ks, ?_, ?_⟩
      · rw [List.mapM_cons]
        simp only [keyInt, PyVal.toInt, ok_bind, i1]
        rfl
      · intro v'
        simp [i2]
  obtain ⟨ks, k1, k2⟩ := hkm
  refine ⟨discrete rs [], ks, ?_, ?_, ?_, ?_⟩
  · intro b hb' v hv
    exact g1 _ (h2.mem_iff.mpr (List.mem_map.mpr ⟨b, hb', rfl⟩)) v hv
  · intro v hv
    rw [g2, Dict.get?_nil]
    intro b hb' v' hv' e
    obtain ⟨c, hc', rfl⟩ := List.mem_map.mp (h2.mem_iff.mp hb')
    simp at e
    subst e
    exact hv c hc' hv'
  · intro v
    rw [k2]
    constructor
    · intro hv
      obtain ⟨b, hb', v', hv', e⟩ := keys _ hv
      simp at e
      subst e
      obtain ⟨c, hc', rfl⟩ := List.mem_map.mp (h2.mem_iff.mp hb')
      exact ⟨c, hc', hv'⟩
    · rintro ⟨b, hb', hv⟩
      have := Dict.mem_of_get? (g1 _ (h2.mem_iff.mpr (List.mem_map.mpr ⟨b, hb', rfl⟩)) v hv)
      exact List.mem_map.mpr ⟨_, this, rfl⟩
  · obtain ⟨t, _, _, _, _, _, _, ht, hdim, _⟩ := hn
    simp only [MergeEnv.getTree, hr, Option.getD_some, h1, ok_bind, if_neg rne, MergeEnv.hasDims, ht, hdim, if_true, hno,
      Bool.false_eq_true, if_false]
    cases ptr <;> first | rfl | (simp only [k1, ok_bind])

/-- **C50** (constant index) Reading element `v` of an array assigned element by element gives the (simplified) tree
assigned to that element; an element never assigned raises KeyError. -/
theorem C50_constant_index (S : MergeEnv) (hc : ConstStable S) (hS : OptStable S) (n : ScopeChain) (hn : S.ArrayTerm n) (bs : List Bind)
    (hr : S.rbinds.get? n = some bs) (hne : bs ≠ []) (hb : ∀ b ∈ bs, ∃ v, b.Elem n v) (hd : DistinctElems n bs)
    (hg : ∀ b ∈ bs, ∃ t, S.opt b.tree = .ok t) (v : Int) (w : Option Int) (x y : Bool) :
    (∀ b ∈ bs, b.Elem n v → S.getTree n (.ev (.int v) w x y) = S.opt b.tree) ∧
    ((∀ b ∈ bs, ¬ b.Elem n v) → S.getTree n (.ev (.int v) w x y) = .error .key) := by
  have hg' : ∀ b ∈ bs, S.opt b.tree = .ok ((S.opt b.tree).toOption.getD .none) := by
    intro b hb'
    obtain ⟨t, ht⟩ := hg b hb'
    rw [ht]; rfl
  obtain ⟨d, ks, h1, h2, _, h4⟩ := getTree_elems hc hS hn bs hr hne hb hd _ hg' (.ev (.int v) w x y)
  constructor
  · intro b hb' hv
    rw [h4]
    simp only [MergeEnv.elementTree, h1 b hb' v hv]
    exact (hg' b hb').symm
  · intro hv
    rw [h4]
    simp only [MergeEnv.elementTree, h2 v hv]

theorem elementChain_sem {S : MergeEnv} {d : Dict (Option PyVal) (List Bind)} {ptr : DF} (hp : ptr ≠ .none) (f : Int → DF) :
    ∀ (cs : List Int) (ret : DF), cs.Nodup → (∀ c ∈ cs, S.elementTree d (.int c) = .ok (f c)) →
    ∃ r, S.elementChain d ptr cs ret = .ok r ∧ ∀ ρ i w, sem ρ ptr = some (i, w) →
      (i ∈ cs → sem ρ r = sem ρ (f i)) ∧ (i ∉ cs → sem ρ r = sem ρ ret) := by
  intro cs
  induction cs with
  | nil => intro ret _ _; exact ⟨ret, rfl, fun _ _ _ _ => ⟨by simp, fun _ => rfl⟩⟩
  | cons c cs ih =>
    intro ret hnd hf
    rw [List.nodup_cons] at hnd
    obtain ⟨r, h1, h2⟩ := ih (.branch (.op .eq [.evi c (some 32), ptr]) (f c) ret) hnd.2 (fun x hx => hf x (by simp [hx]))
    refine ⟨r, ?_, ?_⟩
    · have ho : DF.mkOp .eq [.evi c (some 32), ptr] = .ok (.op .eq [.evi c (some 32), ptr]) := by
        unfold DF.mkOp
        rw [if_neg]
        simp [hp.symm]
      rw [MergeEnv.elementChain, hf c (by simp), ok_bind, ho, ok_bind]
      exact h1
    · intro ρ i w hi
      obtain ⟨a, b⟩ := h2 ρ i w hi
      have hbr : sem ρ (.branch (.op .eq [.evi c (some 32), ptr]) (f c) ret) = if c = i then sem ρ (f c) else sem ρ ret := by
        by_cases e : c = i <;> simp [sem, semList, hi, opSem, b2i, e]
      constructor
      · intro hm
        by_cases hi' : i ∈ cs
        · exact a hi'
        · rw [b hi', hbr]
          rcases List.mem_cons.mp hm with e | h
          · rw [if_pos e.symm, e]
          · exact absurd h hi'
      · intro hm
        rw [List.mem_cons, not_or] at hm
        rw [b hm.2, hbr, if_neg (fun e => hm.1 e.symm)]

theorem nodup_intRange (a b : Int) : (intRange a b).Nodup := by
  unfold intRange
  refine List.Nodup.map ?_ List.nodup_range
  intro x y h
  simp at h; exact h

theorem bounds_exact (ks : List Int) (lo hi : Int) (h : ∀ v, v ∈ ks ↔ lo ≤ v ∧ v ≤ hi) (hne : lo ≤ hi) :
    ks.foldl min (ks.headD 0) = lo ∧ ks.foldl max (ks.headD 0) = hi := by
  have h0 : ks.headD 0 ∈ ks := by
    cases ks with
    | nil => exact absurd ((h lo).mpr ⟨by omega, by omega⟩) (by simp)
    | cons a ks => simp
  obtain ⟨a1, a2, a3⟩ := foldl_min_spec ks (ks.headD 0)
  obtain ⟨b1, b2, b3⟩ := foldl_max_spec ks (ks.headD 0)
  have q1 := a2 lo ((h lo).mpr ⟨by omega, by omega⟩)
  have q2 := b2 hi ((h hi).mpr ⟨by omega, by omega⟩)
  have q3 : ks.foldl min (ks.headD 0) ∈ ks := by rcases a3 with e | e; rw [e]; exact h0; exact e
  have q4 : ks.foldl max (ks.headD 0) ∈ ks := by rcases b3 with e | e; rw [e]; exact h0; exact e
  have := (h _).mp q3
  have := (h _).mp q4
  omega

/-- **C50** (variable index) Reading an array whose elements `lo` to `hi` are assigned one by one, through any index
expression, gives a tree that, whatever the index evaluates to, has the value of the tree assigned to that element, and no
value for an index outside `lo..hi`. -/
theorem C50_variable_index_partial (S : MergeEnv) (hc : ConstStable S) (hS : OptStable S) (n : ScopeChain) (hn : S.ArrayTerm n) (bs : List Bind)
    (hr : S.rbinds.get? n = some bs) (hb : ∀ b ∈ bs, ∃ v, b.Elem n v) (hd : DistinctElems n bs)
    (hg : ∀ b ∈ bs, ∃ t, S.opt b.tree = .ok t) (lo hi : Int) (hlh : lo ≤ hi) (hcov : ∀ v, (∃ b ∈ bs, b.Elem n v) ↔ lo ≤ v ∧ v ≤ hi)
    (ptr : DF) (hp : ptr ≠ .none) (hp' : ptr.isEv = false) :
    ∃ r, S.getTree n ptr = .ok r ∧ ∀ ρ i w, sem ρ ptr = some (i, w) →
      (∀ b ∈ bs, b.Elem n i → ∀ t, S.opt b.tree = .ok t → sem ρ r = sem ρ t) ∧
      (¬ (lo ≤ i ∧ i ≤ hi) → sem ρ r = none) := by
  have hg' : ∀ b ∈ bs, S.opt b.tree = .ok ((S.opt b.tree).toOption.getD .none) := by
    intro b hb'
    obtain ⟨t, ht⟩ := hg b hb'
    rw [ht]; rfl
  have hne : bs ≠ [] := by
    rintro rfl
    exact absurd ((hcov lo).mpr ⟨by omega, by omega⟩) (by simp)
  obtain ⟨d, ks, h1, h2, h3, h4⟩ := getTree_elems hc hS hn bs hr hne hb hd _ hg' ptr
  obtain ⟨e1, e2⟩ := bounds_exact ks lo hi (fun v => by rw [h3, hcov]) hlh
  have hchain : S.getTree n ptr = S.elementChain d ptr (intRange lo hi) .none := by
    rw [h4, ← e1, ← e2]
    cases ptr <;> first | rfl | simp [DF.isEv] at hp'
  have hel : ∀ c ∈ intRange lo hi, ∃ t, S.elementTree d (.int c) = .ok t := by
    intro c hc'
    obtain ⟨b, hb', hv⟩ := (hcov c).mpr (mem_intRange.mp hc')
    exact ⟨_, by simp only [MergeEnv.elementTree, h1 b hb' c hv]; rfl⟩
  obtain ⟨r, hr1, hr2⟩ := elementChain_sem (S := S) (d := d) hp (fun c => (S.elementTree d (.int c)).toOption.getD .none)
    (intRange lo hi) .none (nodup_intRange _ _) (fun c hc' => by obtain ⟨t, ht⟩ := hel c hc'; rw [ht]; rfl)
  refine ⟨r, by rw [hchain, hr1], ?_⟩
  intro ρ i w hi'
  obtain ⟨a, b⟩ := hr2 ρ i w hi'
  constructor
  · intro c hc' hv t ht
    have hin := (hcov i).mp ⟨c, hc', hv⟩
    rw [a (mem_intRange.mpr hin)]
    simp only [MergeEnv.elementTree, h1 c hc' i hv, ht]
    rfl
  · intro hout
    rw [b (by rw [mem_intRange]; exact hout)]
    rfl

theorem elementChain_error {S : MergeEnv} {d : Dict (Option PyVal) (List Bind)} {ptr : DF} (hp : ptr ≠ .none) :
    ∀ (cs : List Int) (ret : DF), (∀ c ∈ cs, (∃ t, S.elementTree d (.int c) = .ok t) ∨ S.elementTree d (.int c) = .error .key) →
    (∃ c ∈ cs, S.elementTree d (.int c) = .error .key) → S.elementChain d ptr cs ret = .error .key := by
  intro cs
  induction cs with
  | nil => intro ret _ h; simp at h
  | cons c cs ih =>
    intro ret hall hex
    rw [MergeEnv.elementChain]
    rcases hall c (by simp) with ⟨t, ht⟩ | he
    · have ho : DF.mkOp .eq [.evi c (some 32), ptr] = .ok (.op .eq [.evi c (some 32), ptr]) := by
        unfold DF.mkOp
        rw [if_neg]
        simp [hp.symm]
      rw [ht, ok_bind, ho, ok_bind]
      refine ih _ (fun x hx => hall x (by simp [hx])) ?_
      obtain ⟨x, hx, hx'⟩ := hex
      rcases List.mem_cons.mp hx with e | h
      · rw [e, ht] at hx'; simp at hx'
      · exact ⟨x, h, hx'⟩
    · rw [he]; rfl

/-- **C50** is false of the code for *every* array with a hole: if some element between two assigned ones is not
assigned, reading the array through a variable index raises KeyError. -/
theorem C50_hole_false (S : MergeEnv) (hc : ConstStable S) (hS : OptStable S) (n : ScopeChain) (hn : S.ArrayTerm n) (bs : List Bind)
    (hr : S.rbinds.get? n = some bs) (hb : ∀ b ∈ bs, ∃ v, b.Elem n v) (hd : DistinctElems n bs)
    (hg : ∀ b ∈ bs, ∃ t, S.opt b.tree = .ok t) (a v c : Int) (ha : ∃ b ∈ bs, b.Elem n a) (hv : ∀ b ∈ bs, ¬ b.Elem n v)
    (hc' : ∃ b ∈ bs, b.Elem n c) (hav : a ≤ v) (hvc : v ≤ c) (ptr : DF) (hp : ptr ≠ .none) (hp' : ptr.isEv = false) :
    S.getTree n ptr = .error .key := by
  have hg' : ∀ b ∈ bs, S.opt b.tree = .ok ((S.opt b.tree).toOption.getD .none) := by
    intro b hb'
    obtain ⟨t, ht⟩ := hg b hb'
    rw [ht]; rfl
  have hne : bs ≠ [] := by
    rintro rfl
    simp at ha
  obtain ⟨d, ks, h1, h2, h3, h4⟩ := getTree_elems hc hS hn bs hr hne hb hd _ hg' ptr
  have hchain : S.getTree n ptr = S.elementChain d ptr (intRange (ks.foldl min (ks.headD 0)) (ks.foldl max (ks.headD 0))) .none := by
    rw [h4]
    cases ptr <;> first | rfl | simp [DF.isEv] at hp'
  rw [hchain]
  apply elementChain_error hp
  · intro x _
    by_cases hx : ∃ b ∈ bs, b.Elem n x
    · obtain ⟨b, hb', hx'⟩ := hx
      exact .inl ⟨_, by simp only [MergeEnv.elementTree, h1 b hb' x hx']; rfl⟩
    · refine .inr ?_
      simp only [MergeEnv.elementTree, h2 x (fun b hb' hx' => hx ⟨b, hb', hx'⟩)]
  · refine ⟨v, mem_intRange.mpr ⟨?_, ?_⟩, by simp only [MergeEnv.elementTree, h2 v hv]⟩
    · have := (foldl_min_spec ks (ks.headD 0)).2.1 a ((h3 a).mpr ha); omega
    · have := (foldl_max_spec ks (ks.headD 0)).2.1 c ((h3 c).mpr hc'); omega

/-- `a[v] = t`, for an array `a` of 8-bit elements. -/
def c50a : ScopeChain := [⟨"top".toList, .module, none⟩, ⟨"a".toList, .signal, none⟩]
def c50b (v : Int) (t : DF) : Bind := ⟨t, c50a, .none, .none, .evi v (some 32), [], none⟩
def c50S (bs : List Bind) : MergeEnv := mergeEnvOf ⟨[(c50a, ⟨c50a, [.reg], .intc ['7'], .intc ['0'],
  some [(.intc ['3'], .intc ['0'])]⟩)], [], 32, fun _ => none⟩ 5 2 [] [(c50a, bs)]

/-- Non-vacuity: two elements assigned in reverse order, read through `s`; and a hole at 1. -/
example (bs : List Bind) : (c50S bs).ArrayTerm c50a := by
  refine ⟨_, _, _, _, _, 7, 0, rfl, rfl, rfl, rfl, ?_, ?_, rfl, rfl, ?_, ?_⟩ <;> decide +kernel
example (v : Int) (t : DF) : (c50b v t).Elem c50a v := ⟨rfl, rfl, rfl, _, _, _, rfl⟩
example (bs : List Bind) : ConstStable (c50S bs) ∧ OptStable (c50S bs) := ⟨constStable_real _ 4 _ _ _, optStable_real _ 4 _ _ _⟩
example : (c50S [c50b 1 (.evi 5 (some 8)), c50b 0 (.term c23d)]).getTree c50a (.term c23s) =
    .ok (.branch (.op .eq [.evi 1 (some 32), .term c23s]) (.evi 5 (some 8))
      (.branch (.op .eq [.evi 0 (some 32), .term c23s]) (.term c23d) .none)) := by decide +kernel
example : (c50S [c50b 2 (.evi 5 (some 8)), c50b 0 (.term c23d)]).getTree c50a (.term c23s) = .error .key := by decide +kernel

end Pyv
