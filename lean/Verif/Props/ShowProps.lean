import Verif.Show
import Verif.Props.StoresProps
import Verif.Props.DumpProps
import Verif.Props.StmtGrammarSound
/-
  C90: the dump of a syntax tree (`show`) determines the tree.
-/
namespace Pyv

/-! ### Specification -/

/-- Every node has a class name made of letters, and a value for each attribute of its class. -/
inductive ANode.Named : ANode → Prop
  | nd {c vs ks} : c ≠ [] → (∀ x ∈ c, x.isAlpha = true) → vs.length = (attrNames c).length → (∀ k ∈ ks, ANode.Named k) →
      ANode.Named (.nd c vs ks)

/-- No value contains a line break, and no value but the last contains a comma. -/
inductive ANode.Plain : ANode → Prop
  | nd {c vs ks} : (∀ v ∈ vs, '\n' ∉ v) → (∀ v ∈ vs.dropLast, ',' ∉ v) → (∀ k ∈ ks, ANode.Plain k) → ANode.Plain (.nd c vs ks)

/-! ### Cutting texts -/

theorem cut_first {p : Char → Bool} {a b : Str} {x y : Char} {xs ys : Str} (ha : ∀ c ∈ a, p c = true) (hb : ∀ c ∈ b, p c = true)
    (hx : p x = false) (hy : p y = false) (h : a ++ x :: xs = b ++ y :: ys) : a = b ∧ x :: xs = y :: ys := by
  induction a generalizing b with
  | nil =>
    cases b with
    | nil => exact ⟨rfl, h⟩
    | cons c b => simp only [List.nil_append, List.cons_append, List.cons.injEq] at h; rw [h.1, hb c (by simp)] at hx; simp at hx
  | cons c a ih =>
    cases b with
    | nil => simp only [List.nil_append, List.cons_append, List.cons.injEq] at h; rw [← h.1, ha c (by simp)] at hy; simp at hy
    | cons d b =>
      simp only [List.cons_append, List.cons.injEq] at h
      obtain ⟨e1, e2⟩ := ih (fun z hz => ha z (by simp [hz])) (fun z hz => hb z (by simp [hz])) h.2
      exact ⟨by rw [h.1, e1], e2⟩

theorem cut_last {p : Char → Bool} {a b : Str} {x y : Char} {xs ys : Str} (ha : ∀ c ∈ a, p c = true) (hb : ∀ c ∈ b, p c = true)
    (hx : p x = false) (hy : p y = false) (h : xs ++ x :: a = ys ++ y :: b) : a = b ∧ xs ++ [x] = ys ++ [y] := by
  have h2 := congrArg List.reverse h
  simp only [List.reverse_append, List.reverse_cons, List.append_assoc, List.singleton_append] at h2
  obtain ⟨e1, e2⟩ := cut_first (by simpa using ha) (by simpa using hb) hx hy h2
  refine ⟨List.reverse_injective e1, ?_⟩
  have := congrArg List.reverse e2
  simpa using this

theorem lines_at (n : Nat) (a : Str) : a ++ (Lines.at n).text = (a ++ " (at".toList) ++ ' ' :: natStr n ++ [')'] := by
  have e : (Lines.at n).text = " (at ".toList ++ natStr n ++ ")".toList := rfl
  rw [e]
  generalize natStr n = s
  simp

theorem lines_from (n k : Nat) (a : Str) :
    a ++ (Lines.fromTo n k).text = (a ++ " (from".toList ++ ' ' :: natStr n ++ " to".toList) ++ ' ' :: natStr k ++ [')'] := by
  have e : (Lines.fromTo n k).text = " (from ".toList ++ natStr n ++ " to ".toList ++ natStr k ++ ")".toList := rfl
  rw [e]
  generalize natStr n = s
  generalize natStr k = t
  simp

theorem lines_text_inj {a b : Str} {l m : Lines} (h : a ++ l.text = b ++ m.text) : a = b ∧ l = m := by
  have dg : ∀ n, ∀ c ∈ natStr n, (fun c : Char => c.isDigit) c = true := natStr_digits
  have no : ∀ x y : Str, x ++ " (at".toList ++ [' '] = y ++ " to".toList ++ [' '] → False := by
    intro x y e
    have e3 := congrArg (fun s => s.reverse.drop 1 |>.head?) e
    simp at e3
  cases l with
  | «at» n =>
    rw [lines_at] at h
    cases m with
    | «at» k =>
      rw [lines_at] at h
      obtain ⟨e1, e2⟩ := cut_last (dg n) (dg k) (by decide) (by decide) (List.append_cancel_right h)
      exact ⟨List.append_cancel_right (List.append_cancel_right e2), by rw [natStr_inj e1]⟩
    | fromTo i j =>
      rw [lines_from] at h
      obtain ⟨e1, e2⟩ := cut_last (dg n) (dg j) (by decide) (by decide) (List.append_cancel_right h)
      exact (no _ _ e2).elim
  | fromTo i j =>
    rw [lines_from] at h
    cases m with
    | «at» k =>
      rw [lines_at] at h
      obtain ⟨e1, e2⟩ := cut_last (dg j) (dg k) (by decide) (by decide) (List.append_cancel_right h)
      exact (no _ _ e2.symm).elim
    | fromTo i' j' =>
      rw [lines_from] at h
      obtain ⟨e1, e2⟩ := cut_last (dg j) (dg j') (by decide) (by decide) (List.append_cancel_right h)
      have e3 := List.append_cancel_right (List.append_cancel_right e2)
      obtain ⟨e4, e5⟩ := cut_last (dg i) (dg i') (by decide) (by decide) e3
      exact ⟨List.append_cancel_right (List.append_cancel_right e5), by rw [natStr_inj e1, natStr_inj e4]⟩

theorem attrJoin_inj (f : Str → Str) (ns : List Str) : ∀ (vs ws : List Str), vs.length = ns.length → ws.length = ns.length →
    (∀ v ∈ vs.dropLast, ',' ∉ v) → (∀ v ∈ ws.dropLast, ',' ∉ v) →
    attrJoin (List.zipWith (fun n v => f n ++ v) ns vs) = attrJoin (List.zipWith (fun n v => f n ++ v) ns ws) → vs = ws := by
  induction ns with
  | nil => intro vs ws h1 h2 _ _ _; rw [List.length_nil] at h1 h2; rw [List.length_eq_zero_iff.mp h1, List.length_eq_zero_iff.mp h2]
  | cons n ns ih =>
    intro vs ws h1 h2 p1 p2 h
    cases vs with
    | nil => simp at h1
    | cons v vs =>
      cases ws with
      | nil => simp at h2
      | cons w ws =>
        cases ns with
        | nil =>
          have e1 : vs = [] := List.length_eq_zero_iff.mp (by simpa using h1)
          have e2 : ws = [] := List.length_eq_zero_iff.mp (by simpa using h2)
          subst e1 e2
          simpa [attrJoin] using h
        | cons m ns =>
          cases vs with
          | nil => simp at h1
          | cons v2 vs =>
            cases ws with
            | nil => simp at h2
            | cons w2 ws =>
              have h' : v ++ ',' :: (' ' :: attrJoin (List.zipWith (fun n v => f n ++ v) (m :: ns) (v2 :: vs))) =
                  w ++ ',' :: (' ' :: attrJoin (List.zipWith (fun n v => f n ++ v) (m :: ns) (w2 :: ws))) := by
                simpa [attrJoin, List.zipWith_cons_cons] using h
              obtain ⟨e1, e2⟩ := cut_first (p := fun c => c ≠ ',')
                (by intro c hc; simp; rintro rfl; exact p1 v (by simp) hc)
                (by intro c hc; simp; rintro rfl; exact p2 w (by simp) hc) (by simp) (by simp) h'
              simp only [List.cons.injEq, true_and] at e2
              rw [e1, ih (v2 :: vs) (w2 :: ws) (by simpa using h1) (by simpa using h2)
                (fun x hx => p1 x (by simp [hx])) (fun x hx => p2 x (by simp [hx])) e2]

theorem zipWith_right {α β} (l : List α) (m : List β) (h : m.length = l.length) : List.zipWith (fun _ v => v) l m = m := by
  induction l generalizing m with
  | nil =>
    have := List.length_eq_zero_iff.mp (by simpa using h : m.length = 0)
    rw [this]; rfl
  | cons a l ih =>
    cases m with
    | nil => simp at h
    | cons b m => rw [List.zipWith_cons_cons, ih m (by simpa using h)]

theorem showHead_inj {a l : Bool} {c c' : Str} {vs ws : List Str} {i j : Lines} (hc : ∀ x ∈ c, x.isAlpha = true)
    (hc' : ∀ x ∈ c', x.isAlpha = true) (hl : vs.length = (attrNames c).length) (hl' : ws.length = (attrNames c').length)
    (p : ∀ v ∈ vs.dropLast, ',' ∉ v) (p' : ∀ v ∈ ws.dropLast, ',' ∉ v) (h : showHead a l c vs i = showHead a l c' ws j) :
    c = c' ∧ vs = ws ∧ (l = true → i = j) := by
  have h1 : ∀ (c : Str) vs i, showHead a l c vs i = c ++ ':' :: (' ' :: (attrJoin (if a then List.zipWith (fun n v => n ++ "=".toList ++ v) (attrNames c) vs else vs) ++
    (if l then i.text else []))) := by intro c vs i; simp [showHead]
  rw [h1, h1] at h
  obtain ⟨e1, e2⟩ := cut_first (p := fun x => x.isAlpha) hc hc' (by decide) (by decide) h
  subst e1
  simp only [List.cons.injEq, true_and] at e2
  have e3 : attrJoin (if a then List.zipWith (fun n v => n ++ "=".toList ++ v) (attrNames c) vs else vs) =
      attrJoin (if a then List.zipWith (fun n v => n ++ "=".toList ++ v) (attrNames c) ws else ws) ∧ (l = true → i = j) := by
    cases l with
    | true => obtain ⟨x, y⟩ := lines_text_inj e2; exact ⟨x, fun _ => y⟩
    | false => simpa using e2
  refine ⟨rfl, ?_, e3.2⟩
  cases a with
  | true => exact attrJoin_inj (fun n => n ++ "=".toList) _ vs ws hl hl' p p' e3.1
  | false =>
    refine attrJoin_inj (fun _ => []) (attrNames c) vs ws hl hl' p p' ?_
    simp only [List.nil_append]
    rw [zipWith_right _ _ hl, zipWith_right _ _ hl']
    simpa using e3.1

/-! ### Lines of a dump -/

mutual
/-- The lines of the dump: indentation and text. -/
def LNode.rows (a l : Bool) (d : Nat) : LNode → List (Nat × Str)
  | .nd c vs i ks => (d, showHead a l c vs i) :: LNode.rowsL a l (d + 2) ks
def LNode.rowsL (a l : Bool) (d : Nat) : List LNode → List (Nat × Str)
  | [] => []
  | k :: ks => k.rows a l d ++ LNode.rowsL a l d ks
end

def rowText (r : Nat × Str) : Str := List.replicate r.1 ' ' ++ r.2 ++ ['\n']

theorem LNode.ind {P : LNode → Prop} (nd : ∀ c vs i ks, (∀ k ∈ ks, P k) → P (.nd c vs i ks)) (n : LNode) : P n :=
  LNode.rec (motive_1 := P) (motive_2 := fun ks => ∀ k ∈ ks, P k) (fun c vs i ks h => nd c vs i ks h) (by simp)
    (fun h t hh ht => by intro n hn; rcases List.mem_cons.mp hn with rfl | h'; exact hh; exact ht n h') n

theorem show_rows (a l : Bool) (n : LNode) : ∀ d, n.show a l d = (n.rows a l d).flatMap rowText := by
  induction n using LNode.ind with | nd c vs i ks ih => ?_
  intro d
  have : ∀ d, LNode.showL a l d ks = (LNode.rowsL a l d ks).flatMap rowText := by
    induction ks with
    | nil => intro d; rfl
    | cons k ks ih2 =>
      intro d
      rw [LNode.showL, LNode.rowsL, List.flatMap_append, ih k (by simp), ih2 (fun x hx => ih x (by simp [hx]))]
  rw [LNode.show, LNode.rows, this, List.flatMap_cons]
  simp [rowText]

theorem eraseL_eq (ks : List LNode) : LNode.eraseL ks = ks.map LNode.erase := by
  induction ks with
  | nil => rfl
  | cons k ks ih => rw [LNode.eraseL, ih, List.map_cons]

/-- What is known of the text of a line. -/
def RowOK (r : Nat × Str) : Prop := '\n' ∉ r.2 ∧ ∃ x xs, r.2 = x :: xs ∧ x ≠ ' '

theorem rows_text_inj : ∀ (rs qs : List (Nat × Str)), (∀ r ∈ rs, RowOK r) → (∀ r ∈ qs, RowOK r) →
    rs.flatMap rowText = qs.flatMap rowText → rs = qs := by
  intro rs
  induction rs with
  | nil =>
    intro qs _ _ h
    cases qs with
    | nil => rfl
    | cons q qs => simp [rowText] at h
  | cons r rs ih =>
    intro qs hr hq h
    cases qs with
    | nil => simp [rowText] at h
    | cons q qs =>
      obtain ⟨r1, x, xs, rx, rne⟩ := hr r (by simp)
      obtain ⟨q1, y, ys, qx, qne⟩ := hq q (by simp)
      rw [List.flatMap_cons, List.flatMap_cons] at h
      have h1 : (List.replicate r.1 ' ' ++ r.2) ++ '\n' :: rs.flatMap rowText = (List.replicate q.1 ' ' ++ q.2) ++ '\n' :: qs.flatMap rowText := by
        simpa [rowText] using h
      obtain ⟨e1, e2⟩ := cut_first (p := fun c => c ≠ '\n')
        (by intro c hc; simp; rintro rfl
            rcases List.mem_append.mp hc with h | h
            · simp at h
            · exact r1 h)
        (by intro c hc; simp; rintro rfl
            rcases List.mem_append.mp hc with h | h
            · simp at h
            · exact q1 h) (by simp) (by simp) h1
      rw [rx, qx] at e1
      obtain ⟨e3, e4⟩ := cut_first (p := fun c => c = ' ') (by simp) (by simp) (by simpa using rne) (by simpa using qne) e1
      have e5 : r.1 = q.1 := by simpa using congrArg List.length e3
      have : r = q := Prod.ext e5 (by rw [rx, qx, e4])
      rw [this, ih qs (fun z hz => hr z (by simp [hz])) (fun z hz => hq z (by simp [hz])) (by simpa using e2)]

theorem natStr_noNl (n : Nat) : '\n' ∉ natStr n := by
  intro h; have := natStr_digits n _ h; simp at this

theorem attrNames_noNl (c : Str) : ∀ n ∈ attrNames c, '\n' ∉ n := by
  intro n hn
  have tab : ∀ r ∈ attrTable, ∀ n ∈ r.2, '\n' ∉ n := by decide
  rw [attrNames] at hn
  cases h : attrTable.find? (fun r => r.1 == c) with
  | none => rw [h] at hn; simp at hn
  | some r => rw [h] at hn; exact tab r (List.mem_of_find?_eq_some h) n (by simpa using hn)

theorem attrJoin_noNl : ∀ (vs : List Str), (∀ v ∈ vs, '\n' ∉ v) → '\n' ∉ attrJoin vs
  | [], _ => by simp [attrJoin]
  | [v], h => by simpa [attrJoin] using h v (by simp)
  | v :: w :: vs, h => by
    have := attrJoin_noNl (w :: vs) (fun x hx => h x (by simp [hx]))
    have h0 := h v (by simp)
    rw [attrJoin]
    · simp [h0, this]
    · simp

theorem zipWith_noNl (ns vs : List Str) (hn : ∀ n ∈ ns, '\n' ∉ n) (hv : ∀ v ∈ vs, '\n' ∉ v) :
    ∀ v ∈ List.zipWith (fun n v => n ++ "=".toList ++ v) ns vs, '\n' ∉ v := by
  induction ns generalizing vs with
  | nil => simp
  | cons n ns ih =>
    cases vs with
    | nil => simp
    | cons w vs =>
      intro v h
      rw [List.zipWith_cons_cons] at h
      rcases List.mem_cons.mp h with rfl | h
      · simp [hn n (by simp), hv w (by simp)]
      · exact ih vs (fun x hx => hn x (by simp [hx])) (fun x hx => hv x (by simp [hx])) v h

theorem showHead_ok {a l : Bool} {c : Str} {vs : List Str} {i : Lines} (h0 : c ≠ []) (hc : ∀ x ∈ c, x.isAlpha = true)
    (hv : ∀ v ∈ vs, '\n' ∉ v) (d : Nat) : RowOK (d, showHead a l c vs i) := by
  constructor
  · simp only [showHead]
    intro h
    simp only [List.mem_append] at h
    rcases h with ((h | h) | h) | h
    · have := hc _ h; simp at this
    · simp at h
    · revert h
      apply attrJoin_noNl
      split
      · exact zipWith_noNl _ _ (attrNames_noNl c) hv
      · exact hv
    · split at h
      · have e : i.text = [] ++ i.text := rfl
        rw [e] at h
        cases i with
        | «at» n =>
          rw [lines_at] at h
          have : '\n' ∈ natStr n := by
            revert h
            generalize natStr n = s
            intro h; simpa using h
          exact natStr_noNl n this
        | fromTo n k =>
          rw [lines_from] at h
          have : '\n' ∈ natStr n ∨ '\n' ∈ natStr k := by
            revert h
            generalize natStr n = s
            generalize natStr k = t
            intro h; simpa using h
          exact this.elim (natStr_noNl n) (natStr_noNl k)
      · simp at h
  · cases c with
    | nil => exact absurd rfl h0
    | cons x xs =>
      refine ⟨x, _, by simp [showHead]; rfl, ?_⟩
      rintro rfl
      have := hc ' ' (by simp)
      simp at this

theorem rows_ok {a l : Bool} (n : LNode) : n.erase.Named → n.erase.Plain → ∀ d, ∀ r ∈ n.rows a l d, RowOK r := by
  induction n using LNode.ind with | nd c vs i ks ih => ?_
  intro hn hp d r hr
  rw [LNode.erase] at hn hp
  cases hn with | nd n1 n2 n3 n4 => ?_
  cases hp with | nd p1 p2 p3 => ?_
  rw [LNode.rows] at hr
  rcases List.mem_cons.mp hr with rfl | hr
  · exact showHead_ok n1 n2 p1 d
  · rw [eraseL_eq] at n4 p3
    clear n1 n2 n3 p1 p2
    induction ks with
    | nil => simp [LNode.rowsL] at hr
    | cons k ks ih2 =>
      rw [LNode.rowsL, List.mem_append] at hr
      rcases hr with hr | hr
      · exact ih k (by simp) (n4 _ (by simp)) (p3 _ (by simp)) _ r hr
      · exact ih2 (fun x hx => ih x (by simp [hx])) (by simp [hr]) (fun x hx => n4 x (by rw [List.map_cons]; exact List.mem_cons_of_mem _ hx))
          (fun x hx => p3 x (by rw [List.map_cons]; exact List.mem_cons_of_mem _ hx)) hr

theorem rows_first (a l : Bool) (d : Nat) (n : LNode) : ∃ h t, n.rows a l d = (d, h) :: t := by
  cases n; exact ⟨_, _, by rw [LNode.rows]⟩

/-- What is behind the lines of the children of a node. -/
def Outer (d : Nat) (rs : List (Nat × Str)) : Prop := ∀ r t, rs = r :: t → r.1 < d

theorem rows_inj {a l : Bool} (n : LNode) : ∀ (m : LNode) (d : Nat) (rs qs : List (Nat × Str)),
    n.erase.Named → n.erase.Plain → m.erase.Named → m.erase.Plain → Outer (d + 1) rs → Outer (d + 1) qs →
    n.rows a l d ++ rs = m.rows a l d ++ qs → n.erase = m.erase ∧ (l = true → n = m) ∧ rs = qs := by
  induction n using LNode.ind with | nd c vs i ks ih => ?_
  intro m d rs qs hn hp hn' hp' ho ho' h
  cases m with | nd c' ws j ks' => ?_
  rw [LNode.erase] at hn hp hn' hp'
  cases hn with | nd n1 n2 n3 n4 => ?_
  cases hp with | nd p1 p2 p3 => ?_
  cases hn' with | nd m1 m2 m3 m4 => ?_
  cases hp' with | nd q1 q2 q3 => ?_
  rw [LNode.rows, LNode.rows, List.cons_append, List.cons_append] at h
  simp only [List.cons.injEq, Prod.mk.injEq, true_and] at h
  obtain ⟨rfl, rfl, e3⟩ := showHead_inj n2 m2 n3 m3 p2 q2 h.1
  rw [eraseL_eq] at n4 p3 m4 q3
  have key : ∀ ks' : List LNode, (∀ k ∈ ks'.map LNode.erase, ANode.Named k) → (∀ k ∈ ks'.map LNode.erase, ANode.Plain k) →
      LNode.rowsL a l (d + 2) ks ++ rs = LNode.rowsL a l (d + 2) ks' ++ qs →
      ks.map LNode.erase = ks'.map LNode.erase ∧ (l = true → ks = ks') ∧ rs = qs := by
    clear n1 n2 n3 p1 p2 m1 m2 m3 q1 q2 m4 q3 h e3 ks'
    induction ks with
    | nil =>
      intro ks' g1 g2 h
      cases ks' with
      | nil => exact ⟨rfl, fun _ => rfl, h⟩
      | cons k ks' =>
        obtain ⟨x, t, ht⟩ := rows_first a l (d + 2) k
        rw [LNode.rowsL, LNode.rowsL, ht] at h
        have := ho _ _ h
        simp at this
    | cons k ks ih2 =>
      intro ks' g1 g2 h
      cases ks' with
      | nil =>
        obtain ⟨x, t, ht⟩ := rows_first a l (d + 2) k
        rw [LNode.rowsL, LNode.rowsL, ht] at h
        have := ho' _ _ h.symm
        simp at this
      | cons k' ks' =>
        rw [LNode.rowsL, LNode.rowsL, List.append_assoc, List.append_assoc] at h
        have out : ∀ (ks : List LNode) (rs : List (Nat × Str)), Outer (d + 1) rs → Outer (d + 2 + 1) (LNode.rowsL a l (d + 2) ks ++ rs) := by
          intro ks rs ho r t e
          cases ks with
          | nil => rw [LNode.rowsL] at e; have := ho r t e; omega
          | cons z zs =>
            obtain ⟨x, t, ht⟩ := rows_first a l (d + 2) z
            rw [LNode.rowsL, ht] at e
            simp only [List.cons_append, List.cons.injEq] at e
            rw [← e.1]; simp
        obtain ⟨e1, e2, e3⟩ := ih k (by simp) k' (d + 2) _ _ (n4 _ (by simp)) (p3 _ (by simp)) (g1 _ (by simp)) (g2 _ (by simp))
          (out ks rs ho) (out ks' qs ho') h
        obtain ⟨f1, f2, f3⟩ := ih2 (fun x hx => ih x (by simp [hx])) (fun x hx => n4 x (by rw [List.map_cons]; exact List.mem_cons_of_mem _ hx))
          (fun x hx => p3 x (by rw [List.map_cons]; exact List.mem_cons_of_mem _ hx)) ks' (fun x hx => g1 x (by rw [List.map_cons]; exact List.mem_cons_of_mem _ hx))
          (fun x hx => g2 x (by rw [List.map_cons]; exact List.mem_cons_of_mem _ hx)) e3
        exact ⟨by rw [List.map_cons, List.map_cons, e1, f1], fun hl => by rw [e2 hl, f2 hl], f3⟩
  obtain ⟨e4, e5, e6⟩ := key ks' m4 q3 h.2
  exact ⟨by rw [LNode.erase, LNode.erase, eraseL_eq, eraseL_eq, e4], fun hl => by rw [e3 hl, e5 hl], e6⟩

theorem rows_offset {a l : Bool} {n m : LNode} {d e : Nat} (h : n.rows a l d = m.rows a l e) : d = e := by
  obtain ⟨x, t, ht⟩ := rows_first a l d n
  obtain ⟨y, u, hu⟩ := rows_first a l e m
  rw [ht, hu] at h
  simp only [List.cons.injEq, Prod.mk.injEq] at h
  exact h.1.1

/-- C90.  Two nodes with the same dump (written with the same options) are equal but for the line numbers, and equal in every
respect if the line numbers were shown; their indentation is the same. -/
theorem C90_show_determines (attrnames showlineno : Bool) (n m : LNode) (d e : Nat) (hn : n.erase.Named) (hp : n.erase.Plain)
    (hn' : m.erase.Named) (hp' : m.erase.Plain) (h : n.show attrnames showlineno d = m.show attrnames showlineno e) :
    n.erase = m.erase ∧ (showlineno = true → n = m) ∧ d = e := by
  rw [show_rows, show_rows] at h
  have h2 := rows_text_inj _ _ (rows_ok n hn hp d) (rows_ok m hn' hp' e) h
  have h3 := rows_offset h2
  subst h3
  obtain ⟨e1, e2, _⟩ := rows_inj n m d [] [] hn hp hn' hp' (by intro r t h; simp at h) (by intro r t h; simp at h) (by simpa using h2)
  exact ⟨e1, e2, rfl⟩

/-! ### Expressions -/

/-- The classes of expressions that are no operators. -/
def exClasses : List Str := ["Identifier".toList, "IntConst".toList, "FloatConst".toList, "StringConst".toList,
    "Uplus".toList, "LConcat".toList, "Cond".toList, "Partselect".toList, "Pointer".toList, "Concat".toList, "Repeat".toList,
    "FunctionCall".toList, "SystemCall".toList]

theorem pyName_other (o : Op) : o.pyName ∉ exClasses := by
  cases o <;> decide +kernel

theorem anodeL_eq (es : List Ex) : Ex.anodeL es = es.map Ex.anode := by
  induction es with
  | nil => rfl
  | cons e es ih => rw [Ex.anodeL, ih, List.map_cons]

theorem lnodeL_eq (es : List Ex) : Ex.lnodeL es = es.map Ex.lnode := by
  induction es with
  | nil => rfl
  | cons e es ih => rw [Ex.lnodeL, ih, List.map_cons]

theorem map_inj_mem {α β} {f : α → β} {l m : List α} (hf : ∀ x ∈ l, ∀ y, f x = f y → x = y) (h : l.map f = m.map f) : l = m := by
  induction l generalizing m with
  | nil => cases m with | nil => rfl | cons => simp at h
  | cons x l ih =>
    cases m with
    | nil => simp at h
    | cons y m =>
      simp only [List.map_cons, List.cons.injEq] at h
      rw [hf x (by simp) y h.1, ih (fun z hz => hf z (by simp [hz])) h.2]

theorem scopeNodes_inj {s t : List Str} (h : scopeNodes s = scopeNodes t) : s = t := by
  cases s with
  | nil => cases t with | nil => rfl | cons => simp [scopeNodes] at h
  | cons a s =>
    cases t with
    | nil => simp [scopeNodes] at h
    | cons b t =>
      have h2 : (a :: s).map (fun l => ANode.nd "IdentifierScopeLabel".toList [l, "None".toList] []) =
          (b :: t).map (fun l => ANode.nd "IdentifierScopeLabel".toList [l, "None".toList] []) := by
        simp only [scopeNodes, List.cons.injEq, ANode.nd.injEq, and_true, true_and] at h
        exact h
      exact map_inj_mem (fun x _ y e => by simpa using e) h2

/-- The constructor of an expression; `un` and `bin` have classes in common. -/
def Ex.tag : Ex → Nat
  | .ident _ _ => 0
  | .intc _ => 1
  | .fltc _ => 2
  | .strc _ => 3
  | .uplus _ => 4
  | .un _ _ => 5
  | .bin _ _ _ => 5
  | .cond _ _ _ => 6
  | .psel _ _ _ => 7
  | .ptr _ _ => 8
  | .concat _ => 9
  | .rep _ _ => 10
  | .call _ _ => 11
  | .sys _ _ => 12

def Ex.opOf : Ex → Option Op
  | .un o _ => some o
  | .bin o _ _ => some o
  | _ => none

/-- The class of the node of an expression. -/
def Ex.cls (e : Ex) : Str :=
  match e.opOf with
  | some o => o.pyName
  | none => exClasses.getD e.tag []

theorem anode_cls (e : Ex) : ∃ vs ks, e.anode = .nd e.cls vs ks := by
  cases e <;> exact ⟨_, _, by rw [Ex.anode]; rfl⟩

theorem opOf_some {e : Ex} {o : Op} (h : e.opOf = some o) : e.tag = 5 := by
  cases e <;> first | rfl | simp [Ex.opOf] at h

theorem opOf_none {e : Ex} (h : e.opOf = none) : e.tag < 13 ∧ e.tag ≠ 5 := by
  cases e <;> first | (simp [Ex.tag]; done) | simp [Ex.opOf] at h

theorem exClasses_mem : ∀ i < 13, exClasses.getD i [] ∈ exClasses := by decide +kernel

theorem exClasses_inj : ∀ i < 13, ∀ j < 13, exClasses.getD i [] = exClasses.getD j [] → i = j := by decide +kernel

theorem tag_of_cls {e e' : Ex} (h : e.cls = e'.cls) : e.tag = e'.tag := by
  unfold Ex.cls at h
  cases h1 : e.opOf with
  | some o =>
    cases h2 : e'.opOf with
    | some o' => rw [opOf_some h1, opOf_some h2]
    | none =>
      simp only [h1, h2] at h
      exact absurd (h ▸ exClasses_mem _ (opOf_none h2).1) (pyName_other o)
  | none =>
    cases h2 : e'.opOf with
    | some o' =>
      simp only [h1, h2] at h
      exact absurd (h.symm ▸ exClasses_mem _ (opOf_none h1).1) (pyName_other o')
    | none =>
      simp only [h1, h2] at h
      exact exClasses_inj _ (opOf_none h1).1 _ (opOf_none h2).1 h

theorem tag_of_node {e e' : Ex} (h : e.anode = e'.anode) : e.tag = e'.tag := by
  obtain ⟨vs, ks, h1⟩ := anode_cls e
  obtain ⟨vs', ks', h2⟩ := anode_cls e'
  rw [h1, h2] at h
  exact tag_of_cls (by simp only [ANode.nd.injEq] at h; exact h.1)

theorem anode_inj (e : Ex) : ∀ e' : Ex, e.anode = e'.anode → e = e' := by
  induction e using Ex.ind with
  | ident s n =>
    intro e' h
    have ht := tag_of_node h
    cases e' <;> try (simp [Ex.tag] at ht; done)
    simp only [Ex.anode, ANode.nd.injEq, List.cons.injEq, true_and, and_true] at h
    rw [h.1, scopeNodes_inj h.2]
  | intc s =>
    intro e' h
    have ht := tag_of_node h
    cases e' <;> try (simp [Ex.tag] at ht; done)
    simp only [Ex.anode, ANode.nd.injEq, List.cons.injEq, true_and, and_true] at h
    rw [h]
  | fltc s =>
    intro e' h
    have ht := tag_of_node h
    cases e' <;> try (simp [Ex.tag] at ht; done)
    simp only [Ex.anode, ANode.nd.injEq, List.cons.injEq, true_and, and_true] at h
    rw [h]
  | strc s =>
    intro e' h
    have ht := tag_of_node h
    cases e' <;> try (simp [Ex.tag] at ht; done)
    simp only [Ex.anode, ANode.nd.injEq, List.cons.injEq, true_and, and_true] at h
    rw [h]
  | uplus e ih =>
    intro e' h
    have ht := tag_of_node h
    cases e' <;> try (simp [Ex.tag] at ht; done)
    simp only [Ex.anode, ANode.nd.injEq, List.cons.injEq, true_and, and_true] at h
    rw [ih _ h]
  | un o e ih =>
    intro e' h
    have ht := tag_of_node h
    cases e' <;> try (simp [Ex.tag] at ht; done)
    · simp only [Ex.anode, ANode.nd.injEq, List.cons.injEq, true_and, and_true] at h
      rw [pyName_inj h.1, ih _ h.2]
    · simp [Ex.anode] at h
  | bin o a b iha ihb =>
    intro e' h
    have ht := tag_of_node h
    cases e' <;> try (simp [Ex.tag] at ht; done)
    · simp [Ex.anode] at h
    · simp only [Ex.anode, ANode.nd.injEq, List.cons.injEq, true_and, and_true] at h
      rw [pyName_inj h.1, iha _ h.2.1, ihb _ h.2.2]
  | cond c t f i1 i2 i3 =>
    intro e' h
    have ht := tag_of_node h
    cases e' <;> try (simp [Ex.tag] at ht; done)
    simp only [Ex.anode, ANode.nd.injEq, List.cons.injEq, true_and, and_true] at h
    rw [i1 _ h.1, i2 _ h.2.1, i3 _ h.2.2]
  | psel c t f i1 i2 i3 =>
    intro e' h
    have ht := tag_of_node h
    cases e' <;> try (simp [Ex.tag] at ht; done)
    simp only [Ex.anode, ANode.nd.injEq, List.cons.injEq, true_and, and_true] at h
    rw [i1 _ h.1, i2 _ h.2.1, i3 _ h.2.2]
  | ptr a b iha ihb =>
    intro e' h
    have ht := tag_of_node h
    cases e' <;> try (simp [Ex.tag] at ht; done)
    simp only [Ex.anode, ANode.nd.injEq, List.cons.injEq, true_and, and_true] at h
    rw [iha _ h.1, ihb _ h.2]
  | concat es ih =>
    intro e' h
    have ht := tag_of_node h
    cases e' <;> try (simp [Ex.tag] at ht; done)
    simp only [Ex.anode, ANode.nd.injEq, true_and, anodeL_eq] at h
    rw [map_inj_mem ih h]
  | rep a b iha ihb =>
    intro e' h
    have ht := tag_of_node h
    cases e' <;> try (simp [Ex.tag] at ht; done)
    simp only [Ex.anode, ANode.nd.injEq, List.cons.injEq, true_and, and_true] at h
    rw [iha _ h.2, ihb _ h.1]
  | call f es ih =>
    intro e' h
    have ht := tag_of_node h
    cases e' <;> try (simp [Ex.tag] at ht; done)
    simp only [Ex.anode, ANode.nd.injEq, List.cons.injEq, true_and, and_true, anodeL_eq] at h
    rw [h.1, map_inj_mem ih h.2]
  | sys f es ih =>
    intro e' h
    have ht := tag_of_node h
    cases e' <;> try (simp [Ex.tag] at ht; done)
    simp only [Ex.anode, ANode.nd.injEq, List.cons.injEq, true_and, and_true, anodeL_eq] at h
    rw [h.1, map_inj_mem ih h.2]

theorem lnode_other {e : Ex} (h : ∀ es, e ≠ .concat es) : e.lnode = e.anode := by
  cases e <;> first | (rw [Ex.lnode]; intro es; exact h es) | exact absurd rfl (h _)

theorem cls_notL (e : Ex) : e.cls ≠ "LConcat".toList := by
  have key : exClasses.getD 5 [] = "LConcat".toList := rfl
  intro h
  unfold Ex.cls at h
  cases h1 : e.opOf with
  | some o => simp only [h1] at h; exact absurd (show o.pyName ∈ exClasses by rw [h]; decide +kernel) (pyName_other o)
  | none =>
    simp only [h1] at h
    exact (opOf_none h1).2 (exClasses_inj _ (opOf_none h1).1 5 (by decide) (h.trans key.symm))

theorem lnode_inj (e : Ex) : ∀ e' : Ex, e.lnode = e'.lnode → e = e' := by
  have plain : ∀ e : Ex, (∀ es, e ≠ .concat es) → ∀ e', e.lnode = e'.lnode → e = e' := by
    intro e he e' h
    rw [lnode_other he] at h
    by_cases he' : ∃ es, e' = .concat es
    · obtain ⟨es, rfl⟩ := he'
      obtain ⟨vs, ks, h1⟩ := anode_cls e
      rw [h1, Ex.lnode, ANode.nd.injEq] at h
      exact absurd h.1 (cls_notL e)
    · rw [lnode_other (fun es hes => he' ⟨es, hes⟩)] at h
      exact anode_inj e e' h
  induction e using Ex.ind with
  | concat es ih =>
    intro e' h
    by_cases he' : ∃ es, e' = .concat es
    · obtain ⟨es', rfl⟩ := he'
      rw [Ex.lnode, Ex.lnode, lnodeL_eq, lnodeL_eq, ANode.nd.injEq] at h
      rw [map_inj_mem ih h.2.2]
    · exact (plain e' (fun es hes => he' ⟨es, hes⟩) _ h.symm).symm
  | _ => exact plain _ (by simp)

/-- A class name with that many attributes. -/
def okCls (c : Str) (k : Nat) : Bool := !c.isEmpty && c.all Char.isAlpha && (attrNames c).length == k

theorem named_of {c : Str} {vs : List Str} {ks : List ANode} (k : Nat) (h0 : okCls c k = true) (hk : vs.length = k)
    (h : ∀ k ∈ ks, ANode.Named k) : ANode.Named (.nd c vs ks) := by
  simp only [okCls, Bool.and_eq_true, List.all_eq_true, beq_iff_eq, Bool.not_eq_true', List.isEmpty_eq_false_iff] at h0
  exact .nd h0.1.1 h0.1.2 (by rw [hk, h0.2]) h

theorem pyName_named (o : Op) : okCls o.pyName 0 = true := by
  cases o <;> decide +kernel

theorem scopeNodes_named (s : List Str) : ∀ k ∈ scopeNodes s, ANode.Named k := by
  intro k hk
  cases s with
  | nil => simp [scopeNodes] at hk
  | cons a s =>
    simp only [scopeNodes, List.mem_singleton] at hk
    subst hk
    refine named_of 0 (by decide +kernel) rfl ?_
    intro k hk
    simp only [List.mem_map] at hk
    obtain ⟨x, _, rfl⟩ := hk
    exact named_of 2 (by decide +kernel) rfl (by simp)

theorem anode_named (e : Ex) : e.anode.Named := by
  induction e using Ex.ind with
  | ident s n => rw [Ex.anode]; exact named_of 1 (by decide +kernel) rfl (scopeNodes_named s)
  | intc s => rw [Ex.anode]; exact named_of 1 (by decide +kernel) rfl (by simp)
  | fltc s => rw [Ex.anode]; exact named_of 1 (by decide +kernel) rfl (by simp)
  | strc s => rw [Ex.anode]; exact named_of 1 (by decide +kernel) rfl (by simp)
  | uplus e ih => rw [Ex.anode]; exact named_of 0 (by decide +kernel) rfl (by simpa using ih)
  | un o e ih => rw [Ex.anode]; exact named_of 0 (pyName_named o) rfl (by simpa using ih)
  | bin o a b i1 i2 => rw [Ex.anode]; exact named_of 0 (pyName_named o) rfl (by simpa using ⟨i1, i2⟩)
  | cond c t f i1 i2 i3 => rw [Ex.anode]; exact named_of 0 (by decide +kernel) rfl (by simpa using ⟨i1, i2, i3⟩)
  | psel c t f i1 i2 i3 => rw [Ex.anode]; exact named_of 0 (by decide +kernel) rfl (by simpa using ⟨i1, i2, i3⟩)
  | ptr a b i1 i2 => rw [Ex.anode]; exact named_of 0 (by decide +kernel) rfl (by simpa using ⟨i1, i2⟩)
  | concat es ih => rw [Ex.anode, anodeL_eq]; exact named_of 0 (by decide +kernel) rfl (by simpa using ih)
  | rep a b i1 i2 => rw [Ex.anode]; exact named_of 0 (by decide +kernel) rfl (by simpa using ⟨i2, i1⟩)
  | call f es ih =>
    rw [Ex.anode, anodeL_eq]
    exact named_of 0 (by decide +kernel) rfl (by simpa using ⟨named_of 1 (by decide +kernel) rfl (by simp), ih⟩)
  | sys f es ih => rw [Ex.anode, anodeL_eq]; exact named_of 1 (by decide +kernel) rfl (by simpa using ih)

theorem lnode_named (e : Ex) : e.lnode.Named := by
  have plain : ∀ e : Ex, (∀ es, e ≠ .concat es) → e.lnode.Named := fun e he => by rw [lnode_other he]; exact anode_named e
  induction e using Ex.ind with
  | concat es ih => rw [Ex.lnode, lnodeL_eq]; exact named_of 0 (by decide +kernel) rfl (by simpa using ih)
  | _ => exact plain _ (by simp)

/-- C90 for expressions: whatever the line numbers, nodes with the same dump are nodes of the same expression. -/
theorem C90_expressions (attrnames showlineno : Bool) (e e' : Ex) (n m : LNode) (d d' : Nat) (hn : n.erase = e.anode)
    (hm : m.erase = e'.anode) (hp : n.erase.Plain) (hp' : m.erase.Plain)
    (h : n.show attrnames showlineno d = m.show attrnames showlineno d') : e = e' := by
  have := (C90_show_determines attrnames showlineno n m d d' (hn ▸ anode_named e) hp (hm ▸ anode_named e') hp' h).1
  rw [hn, hm] at this
  exact anode_inj e e' this

/-! ### Statements -/

theorem sanodeL_eq (ss : List Stmt) : Stmt.anodeL ss = ss.flatMap Stmt.anode := by
  induction ss with
  | nil => rfl
  | cons s ss ih => rw [Stmt.anodeL, ih, List.flatMap_cons]

/-- Statements as the parser builds them: only the else branch of an if may be missing; the items of a case statement have
conditions or are `default`; and no block is called `None`. -/
inductive Stmt.Whole : Stmt → Prop
  | nb {l r} : Stmt.Whole (.nb l r)
  | ba {l r} : Stmt.Whole (.ba l r)
  | ifOnly {c t} : Stmt.Whole t → Stmt.Whole (.ifs c t .skip)
  | ifElse {c t f} : Stmt.Whole t → Stmt.Whole f → Stmt.Whole (.ifs c t f)
  | cases {k comp cs bs} : cs.length = bs.length → (∀ c ∈ cs, c ≠ some []) → (∀ b ∈ bs, Stmt.Whole b) →
      Stmt.Whole (.cases k comp cs bs)
  | block {n ss} : n ≠ some "None".toList → (∀ s ∈ ss, Stmt.Whole s) → Stmt.Whole (.block n ss)
  | fors {pl pr c ql qr b} : Stmt.Whole b → Stmt.Whole (.fors pl pr c ql qr b)
  | whiles {c b} : Stmt.Whole b → Stmt.Whole (.whiles c b)

theorem whole_one {s : Stmt} (h : s.Whole) : ∃ n, s.anode = [n] := by
  cases h <;> exact ⟨_, by rw [Stmt.anode]⟩

theorem substNode_inj {c c' : Str} {l r l' r' : Ex} (h : substNode c l r = substNode c' l' r') : c = c' ∧ l = l' ∧ r = r' := by
  simp only [substNode, ANode.nd.injEq, List.cons.injEq, true_and, and_true] at h
  exact ⟨h.1, lnode_inj _ _ h.2.1, anode_inj _ _ h.2.2⟩

def Stmt.stag : Stmt → Nat
  | .skip => 0
  | .nb _ _ => 1
  | .ba _ _ => 2
  | .ifs _ _ _ => 3
  | .cases .case_ _ _ _ => 4
  | .cases .casex _ _ _ => 5
  | .cases .casez _ _ _ => 6
  | .cases .unique _ _ _ => 7
  | .block _ _ => 8
  | .fors _ _ _ _ _ _ => 9
  | .whiles _ _ => 10

def stClasses : List Str := [[], "NonblockingSubstitution".toList, "BlockingSubstitution".toList, "IfStatement".toList,
  "CaseStatement".toList, "CasexStatement".toList, "CasezStatement".toList, "UniqueCaseStatement".toList, "Block".toList,
  "ForStatement".toList, "WhileStatement".toList]

theorem stClasses_inj : ∀ i < 11, ∀ j < 11, stClasses.getD i [] = stClasses.getD j [] → i = j := by decide +kernel

theorem stag_lt (s : Stmt) : s.stag < 11 := by
  cases s with
  | cases k c cs bs => cases k <;> simp [Stmt.stag]
  | _ => simp [Stmt.stag]

theorem stmt_cls {s : Stmt} (h : s.Whole) : ∃ vs ks, s.anode = [.nd (stClasses.getD s.stag []) vs ks] := by
  cases h with
  | @cases k comp cs bs => cases k <;> exact ⟨_, _, by rw [Stmt.anode]; rfl⟩
  | _ => exact ⟨_, _, by rw [Stmt.anode]; rfl⟩

theorem stag_of_node {s t : Stmt} (hs : s.Whole) (ht : t.Whole) (h : s.anode = t.anode) : s.stag = t.stag := by
  obtain ⟨vs, ks, h1⟩ := stmt_cls hs
  obtain ⟨vs', ks', h2⟩ := stmt_cls ht
  rw [h1, h2] at h
  simp only [List.cons.injEq, ANode.nd.injEq] at h
  exact stClasses_inj _ (stag_lt s) _ (stag_lt t) h.1.1

theorem flatMap_inj_whole {ss ts : List Stmt} (ih : ∀ s ∈ ss, ∀ t : Stmt, s.Whole → t.Whole → s.anode = t.anode → s = t)
    (hs : ∀ s ∈ ss, s.Whole) (ht : ∀ s ∈ ts, s.Whole) (h : ss.flatMap Stmt.anode = ts.flatMap Stmt.anode) : ss = ts := by
  induction ss generalizing ts with
  | nil =>
    cases ts with
    | nil => rfl
    | cons t ts => obtain ⟨n, hn⟩ := whole_one (ht t (by simp)); simp [hn] at h
  | cons s ss ihl =>
    obtain ⟨n, hn⟩ := whole_one (hs s (by simp))
    cases ts with
    | nil => simp [hn] at h
    | cons t ts =>
      obtain ⟨m, hm⟩ := whole_one (ht t (by simp))
      simp only [List.flatMap_cons, hn, hm, List.cons_append, List.nil_append, List.cons.injEq] at h
      rw [ih s (by simp) t (hs s (by simp)) (ht t (by simp)) (by rw [hn, hm, h.1]),
        ihl (fun z hz => ih z (by simp [hz])) (fun z hz => hs z (by simp [hz])) (fun z hz => ht z (by simp [hz])) h.2]

theorem items_inj {bs : List Stmt} (ih : ∀ s ∈ bs, ∀ t : Stmt, s.Whole → t.Whole → s.anode = t.anode → s = t)
    (hs : ∀ s ∈ bs, s.Whole) : ∀ (ts : List Stmt) (cs ds : List (Option (List Ex))), (∀ s ∈ ts, s.Whole) →
    cs.length = bs.length → ds.length = ts.length → (∀ c ∈ cs, c ≠ some []) → (∀ c ∈ ds, c ≠ some []) →
    Stmt.anodeC cs bs = Stmt.anodeC ds ts → cs = ds ∧ bs = ts := by
  induction bs with
  | nil =>
    intro ts cs ds ht l1 l2 n1 n2 h
    have : cs = [] := List.length_eq_zero_iff.mp l1
    subst this
    cases ts with
    | nil =>
      have : ds = [] := List.length_eq_zero_iff.mp l2
      subst this; exact ⟨rfl, rfl⟩
    | cons t ts => cases ds with
      | nil => simp at l2
      | cons d ds => simp [Stmt.anodeC] at h
  | cons b bs ihl =>
    intro ts cs ds ht l1 l2 n1 n2 h
    cases cs with
    | nil => simp at l1
    | cons c cs =>
      cases ts with
      | nil =>
        have : ds = [] := List.length_eq_zero_iff.mp l2
        subst this; simp [Stmt.anodeC] at h
      | cons t ts =>
        cases ds with
        | nil => simp at l2
        | cons d ds =>
          obtain ⟨n, hn⟩ := whole_one (hs b (by simp))
          obtain ⟨m, hm⟩ := whole_one (ht t (by simp))
          simp only [Stmt.anodeC, List.cons.injEq, ANode.nd.injEq, true_and, hn, hm, anodeL_eq] at h
          obtain ⟨e1, e2⟩ := List.append_inj' h.1 rfl
          have e3 := map_inj_mem (fun x _ y => anode_inj x y) e1
          have hcd : c = d := by
            have c1 := n1 c (by simp)
            have d1 := n2 d (by simp)
            cases c with
            | none => cases d with
              | none => rfl
              | some d => simp only [Option.getD_none, Option.getD_some] at e3; rw [← e3] at d1; exact absurd rfl d1
            | some c => cases d with
              | none => simp only [Option.getD_none, Option.getD_some] at e3; rw [e3] at c1; exact absurd rfl c1
              | some d => simp only [Option.getD_some] at e3; rw [e3]
          obtain ⟨e5, e6⟩ := ihl (fun z hz => ih z (by simp [hz])) (fun z hz => hs z (by simp [hz])) ts cs ds
            (fun z hz => ht z (by simp [hz])) (by simpa using l1) (by simpa using l2) (fun z hz => n1 z (by simp [hz]))
            (fun z hz => n2 z (by simp [hz])) h.2
          exact ⟨by rw [hcd, e5], by rw [ih b (by simp) t (hs b (by simp)) (ht t (by simp)) (by rw [hn, hm, e2]), e6]⟩

theorem whole_if {c : Ex} {t f : Stmt} (h : (Stmt.ifs c t f).Whole) : t.Whole ∧ (f = .skip ∨ f.Whole) := by
  cases h with
  | ifOnly h => exact ⟨h, .inl rfl⟩
  | ifElse h h' => exact ⟨h, .inr h'⟩

theorem sanode_inj (s : Stmt) : ∀ t : Stmt, s.Whole → t.Whole → s.anode = t.anode → s = t := by
  induction s using Stmt.ind with
  | skip => intro t hs; cases hs
  | nb l r =>
    intro t hs ht h
    have hg := stag_of_node hs ht h
    cases t <;> try (simp [Stmt.stag] at hg; done)
    · simp only [Stmt.anode, List.cons.injEq, and_true] at h
      obtain ⟨_, e1, e2⟩ := substNode_inj h
      rw [e1, e2]
    · rename_i k _ _ _; cases k <;> simp [Stmt.stag] at hg
  | ba l r =>
    intro t hs ht h
    have hg := stag_of_node hs ht h
    cases t <;> try (simp [Stmt.stag] at hg; done)
    · simp only [Stmt.anode, List.cons.injEq, and_true] at h
      obtain ⟨_, e1, e2⟩ := substNode_inj h
      rw [e1, e2]
    · rename_i k _ _ _; cases k <;> simp [Stmt.stag] at hg
  | ifs c t f it jf =>
    intro u hs hu h
    have hg := stag_of_node hs hu h
    cases u <;> try (simp [Stmt.stag] at hg; done)
    · rename_i c' t' f'
      obtain ⟨ht, hf⟩ := whole_if hs
      obtain ⟨ht', hf'⟩ := whole_if hu
      obtain ⟨n, hn⟩ := whole_one ht
      obtain ⟨m, hm⟩ := whole_one ht'
      simp only [Stmt.anode, List.cons.injEq, and_true, ANode.nd.injEq, true_and, hn, hm, List.cons_append, List.nil_append] at h
      have e1 := anode_inj _ _ h.1
      have e2 := it t' ht ht' (by rw [hn, hm, h.2.1])
      have e3 : f = f' := by
        rcases hf with rfl | hf
        · rcases hf' with rfl | hf'
          · rfl
          · obtain ⟨q, hq⟩ := whole_one hf'; rw [hq] at h; simp [Stmt.anode] at h
        · rcases hf' with rfl | hf'
          · obtain ⟨q, hq⟩ := whole_one hf; rw [hq] at h; simp [Stmt.anode] at h
          · exact jf f' hf hf' h.2.2
      rw [e1, e2, e3]
    · rename_i k _ _ _; cases k <;> simp [Stmt.stag] at hg
  | cases k c cs ss ih =>
    intro t hs ht h
    have hg := stag_of_node hs ht h
    cases t with
    | cases k' c' cs' ss' =>
      have hk : k = k' := by cases k <;> cases k' <;> first | rfl | (simp [Stmt.stag] at hg; done)
      cases hs with | cases l1 n1 w1 => ?_
      cases ht with | cases l2 n2 w2 => ?_
      simp only [Stmt.anode, List.cons.injEq, and_true, ANode.nd.injEq, true_and] at h
      obtain ⟨e1, e2⟩ := items_inj ih w1 ss' cs cs' w2 l1 l2 n1 n2 h.2.2
      rw [hk, anode_inj _ _ h.2.1, e1, e2]
    | _ => cases k <;> simp [Stmt.stag] at hg
  | block n ss ih =>
    intro t hs ht h
    have hg := stag_of_node hs ht h
    cases t <;> try (simp [Stmt.stag] at hg; done)
    · rename_i k _ _ _; cases k <;> simp [Stmt.stag] at hg
    · rename_i n' ss'
      cases hs with | block n1 w1 => ?_
      cases ht with | block n2 w2 => ?_
      simp only [Stmt.anode, List.cons.injEq, and_true, ANode.nd.injEq, true_and, sanodeL_eq] at h
      have e1 : n = n' := by
        cases n with
        | none => cases n' with
          | none => rfl
          | some x => have := h.1; rw [Option.getD_none, Option.getD_some] at this; exact absurd (by rw [this]) n2
        | some y => cases n' with
          | none => have := h.1; rw [Option.getD_none, Option.getD_some] at this; exact absurd (by rw [this]) n1
          | some x => have := h.1; rw [Option.getD_some, Option.getD_some] at this; rw [this]
      rw [e1, flatMap_inj_whole ih w1 w2 h.2]
  | fors a b c d e s ih =>
    intro t hs ht h
    have hg := stag_of_node hs ht h
    cases t <;> try (simp [Stmt.stag] at hg; done)
    · rename_i k _ _ _; cases k <;> simp [Stmt.stag] at hg
    · cases hs with | fors w1 => ?_
      cases ht with | fors w2 => ?_
      simp only [Stmt.anode, List.cons.injEq, and_true, ANode.nd.injEq, true_and] at h
      obtain ⟨_, e1, e2⟩ := substNode_inj h.1
      obtain ⟨_, e3, e4⟩ := substNode_inj h.2.2.1
      rw [e1, e2, e3, e4, anode_inj _ _ h.2.1, ih _ w1 w2 h.2.2.2]
  | whiles c s ih =>
    intro t hs ht h
    have hg := stag_of_node hs ht h
    cases t <;> try (simp [Stmt.stag] at hg; done)
    · rename_i k _ _ _; cases k <;> simp [Stmt.stag] at hg
    · cases hs with | whiles w1 => ?_
      cases ht with | whiles w2 => ?_
      simp only [Stmt.anode, List.cons.injEq, and_true, ANode.nd.injEq, true_and] at h
      rw [anode_inj _ _ h.1, ih _ w1 w2 h.2]

theorem substNode_named (l r : Ex) (c : Str) (hc : okCls c 0 = true) : (substNode c l r).Named :=
  named_of 0 hc rfl (by
    intro k hk
    simp only [List.mem_cons, List.not_mem_nil, or_false] at hk
    rcases hk with rfl | rfl
    · exact named_of 0 (by decide +kernel) rfl (by simpa using lnode_named l)
    · exact named_of 0 (by decide +kernel) rfl (by simpa using anode_named r))

theorem sanode_named (s : Stmt) : ∀ n ∈ s.anode, n.Named := by
  induction s using Stmt.ind with
  | skip => simp [Stmt.anode]
  | nb l r => intro n hn; rw [Stmt.anode, List.mem_singleton] at hn; rw [hn]; exact substNode_named l r _ (by decide +kernel)
  | ba l r => intro n hn; rw [Stmt.anode, List.mem_singleton] at hn; rw [hn]; exact substNode_named l r _ (by decide +kernel)
  | ifs c t f i1 i2 =>
    intro n hn
    rw [Stmt.anode, List.mem_singleton] at hn
    rw [hn]
    refine named_of 0 (by decide +kernel) rfl ?_
    intro k hk
    rcases List.mem_cons.mp hk with rfl | hk
    · exact anode_named c
    · rcases List.mem_append.mp hk with hk | hk
      · exact i1 k hk
      · exact i2 k hk
  | cases k c cs ss ih =>
    intro n hn
    rw [Stmt.anode, List.mem_singleton] at hn
    rw [hn]
    refine named_of 0 (by cases k <;> decide +kernel) rfl ?_
    intro k hk
    rcases List.mem_cons.mp hk with rfl | hk
    · exact anode_named c
    · clear hn
      induction ss generalizing cs with
      | nil => cases cs <;> simp [Stmt.anodeC] at hk
      | cons s ss ih2 =>
        cases cs with
        | nil => simp [Stmt.anodeC] at hk
        | cons c1 cs =>
          rw [Stmt.anodeC] at hk
          rcases List.mem_cons.mp hk with rfl | hk
          · refine named_of 0 (by decide +kernel) rfl ?_
            intro k hk
            rcases List.mem_append.mp hk with hk | hk
            · rw [anodeL_eq] at hk
              obtain ⟨e, _, rfl⟩ := List.mem_map.mp hk
              exact anode_named e
            · exact ih s (by simp) k hk
          · exact ih2 cs (fun z hz => ih z (by simp [hz])) (List.mem_cons_of_mem _ hk) hk
  | block n ss ih =>
    intro k hk
    rw [Stmt.anode, List.mem_singleton] at hk
    rw [hk, sanodeL_eq]
    refine named_of 1 (by decide +kernel) rfl ?_
    intro k hk
    obtain ⟨s, hs, hk⟩ := List.mem_flatMap.mp hk
    exact ih s hs k hk
  | fors a b c d e s ih =>
    intro n hn
    rw [Stmt.anode, List.mem_singleton] at hn
    rw [hn]
    refine named_of 0 (by decide +kernel) rfl ?_
    intro k hk
    simp only [List.mem_cons] at hk
    rcases hk with rfl | rfl | rfl | hk
    · exact substNode_named _ _ _ (by decide +kernel)
    · exact anode_named c
    · exact substNode_named _ _ _ (by decide +kernel)
    · exact ih k hk
  | whiles c s ih =>
    intro n hn
    rw [Stmt.anode, List.mem_singleton] at hn
    rw [hn]
    refine named_of 0 (by decide +kernel) rfl ?_
    intro k hk
    rcases List.mem_cons.mp hk with rfl | hk
    · exact anode_named c
    · exact ih k hk

/-- C90 for statements. -/
theorem C90_statements_partial (attrnames showlineno : Bool) (s t : Stmt) (hs : s.Whole) (ht : t.Whole) (n m : LNode) (d d' : Nat)
    (hn : s.anode = [n.erase]) (hm : t.anode = [m.erase]) (hp : n.erase.Plain) (hp' : m.erase.Plain)
    (h : n.show attrnames showlineno d = m.show attrnames showlineno d') : s = t := by
  have := (C90_show_determines attrnames showlineno n m d d' (sanode_named s _ (by simp [hn])) hp
    (sanode_named t _ (by simp [hm])) hp' h).1
  exact sanode_inj s t hs ht (by rw [hn, hm, this])

def SPhrase.AllWhole : SPhrase → Prop
  | .stmt _ s => s.Whole
  | .stmts ss => ∀ s ∈ ss, s.Whole
  | .alts es => es ≠ []
  | .items cs ss => cs.length = ss.length ∧ (∀ c ∈ cs, c ≠ some []) ∧ ∀ s ∈ ss, s.Whole
  | _ => True

theorem sderives_whole {ph : SPhrase} {ts : List Tok} (h : SDerives ph ts) : Tok.id "None".toList ∉ ts → ph.AllWhole := by
  induction h with
  | blocking => intro _; exact .ba
  | nonblocking => intro _; exact .nb
  | noStmt => intro _; simp [SPhrase.AllWhole]
  | stmts _ _ i1 i2 =>
    intro h
    simp only [List.mem_append, not_or] at h
    intro s hs
    rcases List.mem_append.mp hs with hs | hs
    · exact i1 h.1 s hs
    · rw [List.mem_singleton.mp hs]; exact i2 h.2
  | block _ i1 =>
    intro h
    simp only [List.mem_cons, List.mem_append, not_or] at h
    exact .block (by simp) (i1 h.2.1)
  | @named n _ _ _ i1 =>
    intro h
    simp only [List.mem_cons, List.mem_append, not_or] at h
    exact .block (by intro e; simp only [Option.some.injEq] at e; rw [e] at h; exact h.2.2.1 rfl) (i1 h.2.2.2.1)
  | ifElse _ _ _ i1 i2 =>
    intro h
    simp only [List.mem_cons, List.mem_append, not_or] at h
    exact .ifElse (i1 h.2.2.2.2.1) (i2 h.2.2.2.2.2.2)
  | ifOnly _ _ i1 =>
    intro h
    simp only [List.mem_cons, List.mem_append, not_or] at h
    exact .ifOnly (i1 h.2.2.2.2)
  | «for» _ _ _ _ _ _ _ _ i =>
    intro h
    simp only [List.mem_cons, List.mem_append, not_or] at h
    refine .fors (i ?_)
    tauto
  | «while» _ _ i =>
    intro h
    simp only [List.mem_cons, List.mem_append, not_or] at h
    exact .whiles (i h.2.2.2.2)
  | alt => intro _; simp [SPhrase.AllWhole]
  | alts => intro _; simp [SPhrase.AllWhole]
  | noItem => intro _; simp [SPhrase.AllWhole]
  | item _ _ _ i1 i2 i3 =>
    intro h
    simp only [List.mem_cons, List.mem_append, not_or] at h
    obtain ⟨a, b, c⟩ := i1 h.1
    refine ⟨by simp [a], ?_, ?_⟩
    · intro x hx
      rcases List.mem_append.mp hx with hx | hx
      · exact b x hx
      · rw [List.mem_singleton.mp hx]; intro e; simp only [Option.some.injEq] at e; exact i2 h.2.1 e
    · intro x hx
      rcases List.mem_append.mp hx with hx | hx
      · exact c x hx
      · rw [List.mem_singleton.mp hx]; exact i3 h.2.2.2
  | default _ _ i1 i2 =>
    intro h
    simp only [List.mem_cons, List.mem_append, not_or] at h
    obtain ⟨a, b, c⟩ := i1 h.1
    refine ⟨by simp [a], ?_, ?_⟩
    · intro x hx
      rcases List.mem_append.mp hx with hx | hx
      · exact b x hx
      · rw [List.mem_singleton.mp hx]; simp
    · intro x hx
      rcases List.mem_append.mp hx with hx | hx
      · exact c x hx
      · rw [List.mem_singleton.mp hx]; exact i2 h.2.2.2
  | case _ _ _ i =>
    intro h
    simp only [List.mem_cons, List.mem_append, not_or] at h
    obtain ⟨a, b, c⟩ := i h.2.2.2.2.1
    exact .cases a b c
  | _ => intro _; exact trivial

/-- C90 for parsed statements: if the parser reads one statement from each of two texts that do not use the name `None`, and the
dumps of the two are equal, then the statements are equal. -/
theorem C90_parsed_partial (attrnames showlineno : Bool) (x y : Str) (s t : Stmt) (hx : StmtParsesTo x s) (hy : StmtParsesTo y t)
    (nx : ∀ ts, lex x = some ts → Tok.id "None".toList ∉ ts) (ny : ∀ ts, lex y = some ts → Tok.id "None".toList ∉ ts)
    (n m : LNode) (d d' : Nat) (hn : s.anode = [n.erase]) (hm : t.anode = [m.erase]) (hp : n.erase.Plain) (hp' : m.erase.Plain)
    (h : n.show attrnames showlineno d = m.show attrnames showlineno d') : s = t := by
  obtain ⟨ts, h1, ⟨b, h2⟩, _⟩ := (C83_reads_texts x s).1 hx
  obtain ⟨us, h3, ⟨c, h4⟩, _⟩ := (C83_reads_texts y t).1 hy
  exact C90_statements_partial attrnames showlineno s t (sderives_whole h2 (nx ts h1)) (sderives_whole h4 (ny us h3)) n m d d' hn hm hp hp' h

/-! ### Where the dump does not determine the tree -/

/-- C90 is false: an if with only a then branch and one with only that else branch have the same dump. -/
theorem C90_branches_false (c : Ex) (s : Stmt) (h : s ≠ .skip) :
    Stmt.ifs c s .skip ≠ .ifs c .skip s ∧ (Stmt.ifs c s .skip).anode = (Stmt.ifs c .skip s).anode :=
  ⟨by intro e; simp only [Stmt.ifs.injEq] at e; exact h e.2.1, by simp [Stmt.anode]⟩

/-- C90 is false: a block without a name and one with the name `None` have the same dump. -/
theorem C90_block_name_false (ss : List Stmt) :
    Stmt.block none ss ≠ .block (some "None".toList) ss ∧ (Stmt.block none ss).anode = (Stmt.block (some "None".toList) ss).anode :=
  ⟨by simp, by simp [Stmt.anode]⟩

/-- C90 is false for values that contain a line break: a constant can look like two nodes. -/
theorem C90_line_break_false (attrnames : Bool) (c v w : Str) (l : Lines) (d : Nat) (h : attrNames c = []) :
    (LNode.nd c [] l [.nd "StringConst".toList [v ++ "\n".toList ++ List.replicate (d + 2) ' ' ++ "StringConst: ".toList ++
      (if attrnames then "value=".toList else []) ++ w] l []]).show attrnames false d =
    (LNode.nd c [] l [.nd "StringConst".toList [v] l [], .nd "StringConst".toList [w] l []]).show attrnames false d := by
  have e : attrNames "StringConst".toList = ["value".toList] := by decide +kernel
  simp only [LNode.show, LNode.showL, showHead, h, e]
  cases attrnames <;> simp [attrJoin]

/-! ### Examples -/

/-- `if (c) begin q <= d[3]; end` with line numbers. -/
def c90stmt : Stmt := .ifs (.ident [] "c".toList) (.block none [.nb (.ident [] "q".toList) (.ptr (.ident [] "d".toList) (.intc "3".toList))]) .skip

def c90node : LNode :=
  .nd "IfStatement".toList [] (.at 3) [.nd "Identifier".toList ["c".toList] (.at 3) [],
    .nd "Block".toList ["None".toList] (.fromTo 3 5) [.nd "NonblockingSubstitution".toList [] (.fromTo 4 4)
      [.nd "Lvalue".toList [] (.at 4) [.nd "Identifier".toList ["q".toList] (.at 4) []],
       .nd "Rvalue".toList [] (.at 4) [.nd "Pointer".toList [] (.at 4) [.nd "Identifier".toList ["d".toList] (.at 4) [],
         .nd "IntConst".toList ["3".toList] (.at 4) []]]]]]

/-- The hypotheses of `C90_statements_partial` are met. -/
example : c90stmt.Whole ∧ c90stmt.anode = [c90node.erase] ∧ c90node.erase.Plain := by
  refine ⟨.ifOnly (.block (by simp) (by simp; exact .nb)), by simp [c90stmt, Stmt.anode, Stmt.anodeL, substNode, Ex.lnode, Ex.anode, c90node, LNode.erase, LNode.eraseL, scopeNodes], ?_⟩
  simp only [c90node, LNode.erase, LNode.eraseL]
  repeat' first
    | (refine ANode.Plain.nd (by simp) (by simp) ?_; simp only [List.forall_mem_cons, List.forall_mem_nil, and_true])
    | constructor
  all_goals simp

/-- The dump of that node. -/
example : c90node.show false true 0 = ("IfStatement:  (at 3)\n  Identifier: c (at 3)\n  Block: None (from 3 to 5)\n" ++
    "    NonblockingSubstitution:  (from 4 to 4)\n      Lvalue:  (at 4)\n        Identifier: q (at 4)\n      Rvalue:  (at 4)\n" ++
    "        Pointer:  (at 4)\n          Identifier: d (at 4)\n          IntConst: 3 (at 4)\n").toList := by
  decide +kernel

example : (LNode.nd "Input".toList ["clk".toList, "False".toList] (.at 2) []).show true false 4 = "    Input: name=clk, signed=False\n".toList := by
  decide +kernel

end Pyv
