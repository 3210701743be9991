import Verif.Props.GenStep
import Verif.Props.NbVisit
/-
  C97: in the second pass, frames are never removed and a statement ends in the scope in which it started.
-/
namespace Pyv

/-- No frame is removed, and the place is the same. -/
def Stays (s s' : BV) : Prop := s'.current = s.current ∧ ∀ c, s.frames.has c = true → s'.frames.has c = true

theorem Stays.refl (s : BV) : Stays s s := ⟨rfl, fun _ h => h⟩

theorem Stays.trans {s s1 s2 : BV} (h1 : Stays s s1) (h2 : Stays s1 s2) : Stays s s2 :=
  ⟨h2.1.trans h1.1, fun c h => h2.2 c (h1.2 c h)⟩

theorem Stays.eq {s s' : BV} (hc : s'.current = s.current) (hf : s'.frames = s.frames) : Stays s s' := ⟨hc, fun c h => by rw [hf]; exact h⟩

theorem Stays.set {s s' : BV} {c : ScopeChain} {f : Frame} (hc : s'.current = s.current) (hf : s'.frames = Dict.set s.frames c f) : Stays s s' :=
  ⟨hc, fun d h => by rw [hf, Dict.has_set]; simp [h]⟩

/-- An operation of the pass that returns a state. -/
def StaysAll (F : BV → Py BV) : Prop := ∀ s s', F s = .ok s' → Stays s s'

theorem foldlM_stays {α : Type} {F : BV → α → Py BV} (hF : ∀ s a s', F s a = .ok s' → Stays s s') : ∀ (l : List α) s s',
    l.foldlM F s = .ok s' → Stays s s'
  | [], s, s', h => by
    rw [List.foldlM_nil] at h
    have h' : (Except.ok s : Py BV) = .ok s' := h
    rw [ok_inj] at h'; subst h'; exact .refl s
  | a :: l, s, s', h => by
    rw [List.foldlM_cons] at h
    obtain ⟨s1, h1, h⟩ := bind_ok.mp h
    exact (hF s a s1 h1).trans (foldlM_stays hF l s1 s' h)

theorem addBindObj_stays (s : BV) (n : ScopeChain) (i : Nat) (b : Bind) : Stays s (s.addBindObj n i b) := by
  unfold BV.addBindObj
  split
  · exact .eq rfl rfl
  · split
    · exact .eq rfl rfl
    · exact .eq rfl rfl

theorem setBlocking_stays {s s' : BV} {c d : ScopeChain} {i : Nat} {b : Bind} (h : s.setBlocking c d i b = .ok s') : Stays s s' := by
  unfold BV.setBlocking at h
  obtain ⟨f, hf, h⟩ := bind_ok.mp h
  split at h
  · rw [ok_inj] at h; subst h; exact .set rfl rfl
  · split at h
    · rw [ok_inj] at h; subst h; exact .eq rfl rfl
    · rw [ok_inj] at h; subst h; exact .set rfl rfl

theorem addNonblocking_stays {s s' : BV} {d : ScopeChain} {b : Bind} (h : s.addNonblocking d b = .ok s') : Stays s s' := by
  unfold BV.addNonblocking at h
  obtain ⟨f, hf, h⟩ := bind_ok.mp h
  rw [ok_inj] at h; subst h; exact .set rfl rfl

theorem setDataflow1_stays {raw : DF} {path : CondPath} {k : Nat} {ai ty} {s s' : BV} {d : PDst}
    (h : BV.setDataflow1 raw path k ai ty s d = .ok s') : Stays s s' := by
  unfold BV.setDataflow1 at h
  obtain ⟨b, _, h⟩ := bind_ok.mp h
  have h0 : Stays s ((s.alloc b).addBindObj b.dest s.objs.length b) :=
    (Stays.eq (s := s) (s' := s.alloc b) rfl rfl).trans (addBindObj_stays _ _ _ _)
  cases ai with
  | none => simp only [ok_inj] at h; subst h; exact h0
  | some a =>
    simp only [BV.setNonblocking] at h
    obtain ⟨t, _, h⟩ := bind_ok.mp h
    exact h0.trans (addNonblocking_stays h)

theorem renameDst_stays {s : BV} {d : PDst} {r : PDst × BV} (h : s.renameDst d = .ok r) : Stays s r.2 := by
  unfold BV.renameDst at h
  split at h
  · simp at h
  · obtain ⟨⟨x1, x2⟩, _, h⟩ := bind_ok.mp h
    simp only at h
    split at h
    · simp at h
    · rw [ok_inj] at h; rw [← h]; exact .eq rfl rfl

theorem renameDsts_stays : ∀ (ds : List PDst) {s : BV} {r : List PDst × BV}, s.renameDsts ds = .ok r → Stays s r.2
  | [], s, r, h => by simp only [BV.renameDsts, ok_inj] at h; rw [← h]; exact .refl s
  | d :: ds, s, r, h => by
    simp only [BV.renameDsts] at h
    obtain ⟨⟨x1, x2⟩, h1, h⟩ := bind_ok.mp h
    simp only at h
    obtain ⟨⟨y1, y2⟩, h2, h⟩ := bind_ok.mp h
    simp only [ok_inj] at h
    rw [← h]
    exact Stays.trans (s1 := x2) (renameDst_stays h1) (renameDsts_stays ds (r := (y1, y2)) h2)

theorem setRenamedTree1_stays {raw : DF} {k : Nat} {s s' : BV} {d : PDst} (h : BV.setRenamedTree1 raw k s d = .ok s') : Stays s s' := by
  unfold BV.setRenamedTree1 at h
  split at h
  · simp at h
  · rename_i n _
    obtain ⟨t, _, h⟩ := bind_ok.mp h
    dsimp only at h
    obtain ⟨v, _, h⟩ := bind_ok.mp h
    have h0 : Stays s ((s.alloc ⟨t, n, d.msb, d.lsb, d.ptr, [], none⟩).addBindObj n s.objs.length ⟨t, n, d.msb, d.lsb, d.ptr, [], none⟩) :=
      (Stays.eq (s := s) (s' := s.alloc _) rfl rfl).trans (addBindObj_stays _ _ _ _)
    split at h
    · simp at h
    · rw [ok_inj] at h
      subst h
      exact h0.trans (.eq rfl rfl)

theorem setRenamedFlow1_stays {p : CondPath} {k : Nat} {sc : ScopeChain} {ai} {s s' : BV} {d : PDst × PDst}
    (h : BV.setRenamedFlow1 p k sc ai s d = .ok s') : Stays s s' := by
  unfold BV.setRenamedFlow1 at h
  split at h
  · simp at h
  · obtain ⟨b, _, h⟩ := bind_ok.mp h
    exact (Stays.eq (s := s) (s' := s.alloc b) rfl rfl).trans ((addBindObj_stays _ _ _ _).trans (setBlocking_stays h))

theorem setLoopConst_stays {s s' : BV} {ds : List PDst} {raw : DF} (h : s.setLoopConst ds raw = .ok s') : Stays s s' := by
  unfold BV.setLoopConst at h
  split at h
  · split at h
    · simp at h
    · obtain ⟨g, _, h⟩ := bind_ok.mp h
      obtain ⟨v, _, h⟩ := bind_ok.mp h
      rw [ok_inj] at h; subst h; exact .eq rfl rfl
  · rw [ok_inj] at h; subst h; exact .refl s

theorem addBlocking_stays {s s' : BV} {ds : List PDst} {r : Ex} {c : ScopeChain} {ai} (h : s.addBlocking ds r c ai = .ok s') : Stays s s' := by
  unfold BV.addBlocking at h
  obtain ⟨p, _, h⟩ := bind_ok.mp h
  obtain ⟨raw, _, h⟩ := bind_ok.mp h
  obtain ⟨⟨x1, x2⟩, h1, h⟩ := bind_ok.mp h
  simp only at h
  obtain ⟨s2, h2, h⟩ := bind_ok.mp h
  obtain ⟨s3, h3, h⟩ := bind_ok.mp h
  exact (renameDsts_stays _ h1).trans ((foldlM_stays (fun _ _ _ => setRenamedTree1_stays) _ _ _ h2).trans
    ((foldlM_stays (fun _ _ _ => setRenamedFlow1_stays) _ _ _ h3).trans (setLoopConst_stays h)))

theorem addImplicit_stays (s : BV) (ty : TermType) (n : Str) (c : ScopeChain) : Stays s (s.addImplicit ty n c) := .eq rfl rfl

theorem implicit_stays {s s' : BV} {n : Str} {c : ScopeChain} (h : s.implicit n c = .ok s') : Stays s s' := by
  unfold BV.implicit at h
  split at h
  · simp at h
  · simp only [ok_inj] at h
    subst h
    split <;> split
    · exact (addImplicit_stays _ _ _ _).trans (addImplicit_stays _ _ _ _)
    · exact addImplicit_stays _ _ _ _
    · exact addImplicit_stays _ _ _ _
    · exact .refl s

theorem getDst_stays (c : ScopeChain) (e : Ex) : ∀ {s : BV} {d : Dst} {s' : BV}, s.getDst c e = .ok (d, s') → Stays s s' := by
  induction e using Ex.ind with
  | ident sc m =>
    intro s d s' h
    simp only [BV.getDst] at h
    obtain ⟨r, _, h⟩ := bind_ok.mp h
    obtain ⟨s1, h1, h⟩ := bind_ok.mp h
    obtain ⟨r', _, h⟩ := bind_ok.mp h
    have h0 : Stays s s1 := by
      split at h1
      · rw [ok_inj] at h1; subst h1; exact .refl s
      · exact implicit_stays h1
    split at h
    · rw [ok_inj] at h; cases h; exact h0
    · simp at h
  | psel v m l ihv _ _ =>
    intro s d s' h
    by_cases hv : ∃ a b, v = .ptr a b
    · obtain ⟨a, b, rfl⟩ := hv
      simp only [BV.getDst, bind_ok] at h
      obtain ⟨⟨d1, s1⟩, h1, h⟩ := h
      simp only at h
      split at h
      · simp only [bind_ok, ok_inj, Prod.mk.injEq] at h
        obtain ⟨_, _, _, _, _, _, _, _, _, rfl⟩ := h
        exact ihv h1
      · cases h
    · have : s' = s := by
        cases v <;> first | (exfalso; exact hv ⟨_, _, rfl⟩) | skip
        all_goals
          simp only [BV.getDst, bind_ok, ok_inj, Prod.mk.injEq] at h
          obtain ⟨_, _, _, _, _, _, _, _, _, _, _, rfl⟩ := h
          rfl
      subst this; exact .refl _
  | ptr v q ihv _ =>
    intro s d s' h
    by_cases hv : ∃ a b, v = .ptr a b
    · obtain ⟨a, b, rfl⟩ := hv
      simp only [BV.getDst, bind_ok] at h
      obtain ⟨⟨d1, s1⟩, h1, h⟩ := h
      simp only at h
      split at h
      · simp only [bind_ok, ok_inj, Prod.mk.injEq] at h
        obtain ⟨_, _, _, _, _, rfl⟩ := h
        exact ihv h1
      · cases h
    · have : s' = s := by
        cases v <;> first | (exfalso; exact hv ⟨_, _, rfl⟩) | skip
        all_goals
          simp only [BV.getDst, bind_ok] at h
          obtain ⟨n, _, _, _, _, _, h⟩ := h
          cases n with
          | none => simp at h
          | some n =>
            simp only [bind_ok, ok_inj, Prod.mk.injEq] at h
            obtain ⟨_, _, _, rfl⟩ := h
            rfl
      subst this; exact .refl _
  | _ => intros; rename_i h; simp [BV.getDst] at h

mutual
theorem getDsts_stays (c : ScopeChain) : ∀ (e : Ex) {s : BV} {r}, s.getDsts c e = .ok r → Stays s r.2
  | .concat es, s, r, h => by
    simp only [BV.getDsts] at h
    exact getDstsList_stays c es h
  | .ident _ _, s, r, h | .psel _ _ _, s, r, h | .ptr _ _, s, r, h
  | .intc _, s, r, h | .fltc _, s, r, h | .strc _, s, r, h | .cond _ _ _, s, r, h
  | .uplus _, s, r, h | .un _ _, s, r, h | .bin _ _ _, s, r, h
  | .rep _ _, s, r, h | .call _ _, s, r, h | .sys _ _, s, r, h => by
    simp only [BV.getDsts] at h
    obtain ⟨⟨d, s1⟩, h1, h⟩ := bind_ok.mp h
    simp only [ok_inj] at h
    rw [← h]
    exact getDst_stays c _ h1
theorem getDstsList_stays (c : ScopeChain) : ∀ (es : List Ex) {s : BV} {r}, s.getDstsList c es = .ok r → Stays s r.2
  | [], s, r, h => by simp only [BV.getDstsList, ok_inj] at h; rw [← h]; exact .refl s
  | e :: es, s, r, h => by
    simp only [BV.getDstsList] at h
    obtain ⟨⟨d, s1⟩, h1, h⟩ := bind_ok.mp h
    simp only at h
    obtain ⟨⟨d2, s2⟩, h2, h⟩ := bind_ok.mp h
    simp only [ok_inj] at h
    rw [← h]
    exact Stays.trans (s1 := s1) (getDsts_stays c e h1) (getDstsList_stays c es (r := (d2, s2)) h2)
end

theorem getDestinations_stays {s : BV} {l : Ex} {c : ScopeChain} {r} (h : s.getDestinations l c = .ok r) : Stays s r.2 := by
  unfold BV.getDestinations at h
  obtain ⟨⟨ds, s1⟩, h1, h⟩ := bind_ok.mp h
  have h0 : Stays s s1 := getDsts_stays c l h1
  simp only at h
  split at h
  · rw [ok_inj] at h; rw [← h]; exact h0
  · obtain ⟨ps, _, h⟩ := bind_ok.mp h
    rw [ok_inj] at h; rw [← h]; exact h0

theorem setDataflow_stays {s s' : BV} {ds : List PDst} {raw : DF} {p : CondPath} {ai ty} (h : s.setDataflow ds raw p ai ty = .ok s') :
    Stays s s' := by
  unfold BV.setDataflow at h
  exact foldlM_stays (fun _ _ _ => setDataflow1_stays) _ _ _ h

theorem addBind_stays {s s' : BV} {l r : Ex} {ai ty} (h : s.addBind l r ai ty = .ok s') : Stays s s' := by
  unfold BV.addBind at h
  obtain ⟨⟨ds, s1⟩, h1, h⟩ := bind_ok.mp h
  simp only at h
  obtain ⟨p, _, h⟩ := bind_ok.mp h
  obtain ⟨raw, _, h⟩ := bind_ok.mp h
  exact (getDestinations_stays h1).trans (setDataflow_stays h)

theorem addBindBlocking_stays {s s' : BV} {l r : Ex} {ai} (h : s.addBindBlocking l r ai = .ok s') : Stays s s' := by
  unfold BV.addBindBlocking at h
  obtain ⟨⟨ds, s1⟩, h1, h⟩ := bind_ok.mp h
  exact (getDestinations_stays h1).trans (addBlocking_stays h)

theorem label_stays {s : BV} {n : Str} {r} (h : s.label n = .ok r) : Stays s r.2 := by
  unfold BV.label at h
  obtain ⟨f, _, h⟩ := bind_ok.mp h
  rw [ok_inj] at h; rw [← h]; exact .eq rfl rfl

theorem blockLabel_stays {s : BV} {n : Option Str} {r} (h : s.blockLabel n = .ok r) : Stays s r.2 := by
  cases n with
  | some n => simp only [BV.blockLabel, ok_inj] at h; rw [← h]; exact .refl s
  | none => exact label_stays h

/-- Entering a scope: it is new, it is recorded, and it is the current one. -/
theorem enter_stays {s s' : BV} {l : ScopeLabel} {c e} (h : s.enter l c e = .ok s') :
    s'.current = s.current ++ [l] ∧ s.frames.has (s.current ++ [l]) = false ∧ s'.frames.has (s.current ++ [l]) = true ∧
    ∀ c, s.frames.has c = true → s'.frames.has c = true := by
  unfold BV.enter at h
  obtain ⟨f, _, h⟩ := bind_ok.mp h
  unfold BV.push at h
  dsimp only at h
  split at h
  · simp at h
  · rename_i hn
    rw [ok_inj] at h; subst h
    refine ⟨rfl, by simpa using hn, by rw [Dict.has_set]; simp, fun c hc => by rw [Dict.has_set]; simp [hc]⟩

theorem copyNonblocking1_stays {p : CondPath} {s s' : BV} {e} (h : BV.copyNonblocking1 p s e = .ok s') : Stays s s' := by
  unfold BV.copyNonblocking1 at h
  obtain ⟨s1, h1, h⟩ := bind_ok.mp h
  obtain ⟨b, _, h⟩ := bind_ok.mp h
  rw [ok_inj] at h; subst h
  exact (addNonblocking_stays h1).trans ((Stays.eq (s := s1) (s' := s1.alloc b) rfl rfl).trans (addBindObj_stays _ _ _ _))

theorem copyNonblocking_stays {s s' : BV} (h : s.copyNonblocking = .ok s') : Stays s s' := by
  unfold BV.copyNonblocking at h
  obtain ⟨f, _, h⟩ := bind_ok.mp h
  split at h
  · rw [ok_inj] at h; subst h; exact .refl s
  · obtain ⟨pf, _, h⟩ := bind_ok.mp h
    split at h
    · rw [ok_inj] at h; subst h; exact .refl s
    · dsimp only at h
      split at h
      · rw [ok_inj] at h; subst h; exact .refl s
      · obtain ⟨p, _, h⟩ := bind_ok.mp h
        exact foldlM_stays (fun _ _ _ => copyNonblocking1_stays) _ _ _ h

theorem copyBlocking_stays {s s' : BV} {a b : ScopeChain} (h : s.copyBlocking a b = .ok s') : Stays s s' := by
  unfold BV.copyBlocking at h
  obtain ⟨f, _, h⟩ := bind_ok.mp h
  refine foldlM_stays (fun st e st' h => ?_) _ _ _ h
  split at h
  · exact setBlocking_stays h
  · rw [ok_inj] at h; subst h; exact .refl _

/-- Back to the scope the statement started in. -/
theorem Stays.back {s s1 s2 : BV} {l : ScopeLabel} {c e} (h1 : s.enter l c e = .ok s1) (h2 : Stays s1 s2) :
    Stays s { s2 with current := s.current } := ⟨rfl, fun c hc => h2.2 c ((enter_stays h1).2.2.2 c hc)⟩

theorem side_stays {l : Str} {c : Ex} {e : Bool} {body : BV → Py BV} {s s' : BV} (hb : StaysAll body)
    (h : BV.side l c e body s = .ok s') : Stays s s' := by
  unfold BV.side at h
  obtain ⟨s1, h1, h⟩ := bind_ok.mp h
  obtain ⟨s2, h2, h⟩ := bind_ok.mp h
  obtain ⟨s3, h3, h⟩ := bind_ok.mp h
  rw [ok_inj] at h; subst h
  exact .back h1 ((copyNonblocking_stays h2).trans (hb _ _ h3))

theorem visitIf_stays {c : Ex} {noT noF : Bool} {vt vf : BV → Py BV} (ht : StaysAll vt) (hf : StaysAll vf) :
    StaysAll (Stmt.visitIf c noT vt noF vf) := by
  intro s s' h
  unfold Stmt.visitIf at h
  split at h
  · split at h
    · rw [ok_inj] at h; subst h; exact .refl s
    · simp at h
  · obtain ⟨⟨l, s0⟩, h0, h⟩ := bind_ok.mp h
    simp only at h
    obtain ⟨s1, h1, h⟩ := bind_ok.mp h
    have H : Stays s s1 := Stays.trans (s1 := s0) (label_stays h0) (side_stays ht h1)
    split at h
    · exact H.trans (copyBlocking_stays h)
    · obtain ⟨s2, h2, h⟩ := bind_ok.mp h
      obtain ⟨s3, h3, h⟩ := bind_ok.mp h
      exact H.trans ((side_stays hf h2).trans ((copyBlocking_stays h3).trans (copyBlocking_stays h)))

theorem visitBlock_stays {n : Option Str} {body : BV → Py BV} (hb : StaysAll body) : StaysAll (Stmt.visitBlock n body) := by
  intro s s' h
  unfold Stmt.visitBlock at h
  obtain ⟨⟨l, s0⟩, h0, h⟩ := bind_ok.mp h
  simp only at h
  obtain ⟨s1, h1, h⟩ := bind_ok.mp h
  obtain ⟨s2, h2, h⟩ := bind_ok.mp h
  obtain ⟨f, _, h⟩ := bind_ok.mp h
  have L : Stays s s0 := blockLabel_stays h0
  have H : Stays s { s2 with current := s.current } := by
    have := L.trans (Stays.back h1 (hb _ _ h2))
    rw [L.1] at this; exact this
  split at h
  · exact H.trans (copyBlocking_stays h)
  · rw [ok_inj] at h; subst h; exact H

/-- A turn of a loop: the body is visited in a new scope, which stays recorded. -/
theorem iteration_stays {lab : ScopeLabel} {body : BV → Py BV} {s s' : BV} (hb : StaysAll body) (h : s.iteration lab body = .ok s') :
    Stays s s' ∧ s.frames.has (s.current ++ [lab]) = false ∧ s'.frames.has (s.current ++ [lab]) = true := by
  unfold BV.iteration at h
  obtain ⟨s1, h1, h⟩ := bind_ok.mp h
  obtain ⟨s2, h2, h⟩ := bind_ok.mp h
  obtain ⟨s3, h3, h⟩ := bind_ok.mp h
  rw [ok_inj] at h; subst h
  obtain ⟨_, hn, hy, hm⟩ := enter_stays h1
  have H := (hb _ _ h2).trans (copyBlocking_stays h3)
  exact ⟨⟨rfl, fun c hc => H.2 c (hm c hc)⟩, hn, H.2 _ hy⟩

theorem forLoop_stays {l : Str} {c ql qr : Ex} {body : BV → Py BV} (hb : StaysAll body) : ∀ (k : Nat) (v : Int),
    StaysAll (Stmt.forLoop l c ql qr body k v)
  | 0, v, s, s', h => by simp [Stmt.forLoop] at h
  | k + 1, v, s, s', h => by
    simp only [Stmt.forLoop] at h
    obtain ⟨go, _, h⟩ := bind_ok.mp h
    split at h
    · obtain ⟨s1, h1, h⟩ := bind_ok.mp h
      obtain ⟨n, _, h⟩ := bind_ok.mp h
      obtain ⟨ai, _, h⟩ := bind_ok.mp h
      obtain ⟨s2, h2, h⟩ := bind_ok.mp h
      exact (iteration_stays hb h1).1.trans ((addBindBlocking_stays h2).trans (forLoop_stays hb k n s2 s' h))
    · rw [ok_inj] at h; subst h; exact .refl s

theorem visitFor_stays {pl pr c ql qr : Ex} {body : BV → Py BV} (hb : StaysAll body) : StaysAll (Stmt.visitFor pl pr c ql qr body) := by
  intro s s' h
  unfold Stmt.visitFor at h
  obtain ⟨n, _, h⟩ := bind_ok.mp h
  obtain ⟨ai, _, h⟩ := bind_ok.mp h
  obtain ⟨s1, h1, h⟩ := bind_ok.mp h
  obtain ⟨⟨l, s2⟩, h2, h⟩ := bind_ok.mp h
  exact (addBindBlocking_stays h1).trans (Stays.trans (s1 := s2) (label_stays h2) (forLoop_stays hb _ _ _ _ h))

theorem whileLoop_stays {l : Str} {c : Ex} {body : BV → Py BV} (hb : StaysAll body) : ∀ (k : Nat) (v : Int),
    StaysAll (Stmt.whileLoop l c body k v)
  | 0, v, s, s', h => by simp [Stmt.whileLoop] at h
  | k + 1, v, s, s', h => by
    simp only [Stmt.whileLoop] at h
    obtain ⟨go, _, h⟩ := bind_ok.mp h
    split at h
    · obtain ⟨s1, h1, h⟩ := bind_ok.mp h
      exact (iteration_stays hb h1).1.trans (whileLoop_stays hb k _ s1 s' h)
    · rw [ok_inj] at h; subst h; exact .refl s

theorem visitWhile_stays {c : Ex} {body : BV → Py BV} (hb : StaysAll body) : StaysAll (Stmt.visitWhile c body) := by
  intro s s' h
  unfold Stmt.visitWhile at h
  obtain ⟨⟨l, s1⟩, h1, h⟩ := bind_ok.mp h
  exact Stays.trans (s1 := s1) (label_stays h1) (whileLoop_stays hb _ _ _ _ h)

mutual
theorem visit_stays : ∀ (b : Stmt), StaysAll b.visit
  | .skip, s, s', h => by simp only [Stmt.visit, ok_inj] at h; subst h; exact .refl s
  | .nb l r, s, s', h => by
    simp only [Stmt.visit] at h
    obtain ⟨f, _, h⟩ := bind_ok.mp h
    split at h
    · simp at h
    · obtain ⟨ai, _, h⟩ := bind_ok.mp h
      exact addBind_stays h
  | .ba l r, s, s', h => by
    simp only [Stmt.visit] at h
    obtain ⟨ai, _, h⟩ := bind_ok.mp h
    exact addBindBlocking_stays h
  | .ifs c t f, s, s', h => by
    simp only [Stmt.visit] at h
    exact visitIf_stays (visit_stays t) (visit_stays f) s s' h
  | .cases k comp cs bs, s, s', h => by
    have key : ∀ {s' : BV}, (Stmt.visitCases comp cs bs s >>= fun (x : BV × List ScopeChain) =>
        x.2.foldlM (fun st f => st.copyBlocking f s.current) ({ x.1 with current := s.current } : BV)) = .ok s' → Stays s s' := by
      intro s' h
      obtain ⟨⟨s1, fs⟩, h1, h⟩ := bind_ok.mp h
      have H : Stays s ({ s1 with current := s.current } : BV) := ⟨rfl, fun c hc => (visitCases_stays comp cs bs (s' := s1) h1) c hc⟩
      exact H.trans (foldlM_stays (fun _ _ _ => copyBlocking_stays) _ _ _ h)
    cases k with
    | casez => simp only [Stmt.visit] at h; exact visitList_stays bs s s' h
    | unique => simp only [Stmt.visit] at h; exact visitList_stays bs s s' h
    | case_ => simp only [Stmt.visit] at h; exact key h
    | casex => simp only [Stmt.visit] at h; exact key h
  | .block n ss, s, s', h => by
    simp only [Stmt.visit] at h
    exact visitBlock_stays (visitList_stays ss) s s' h
  | .fors pl pr c ql qr b, s, s', h => by
    simp only [Stmt.visit] at h
    exact visitFor_stays (visit_stays b) s s' h
  | .whiles c b, s, s', h => by
    simp only [Stmt.visit] at h
    exact visitWhile_stays (visit_stays b) s s' h
theorem visitList_stays : ∀ (bs : List Stmt), StaysAll (Stmt.visitList bs)
  | [], s, s', h => by simp only [Stmt.visitList, ok_inj] at h; subst h; exact .refl s
  | b :: bs, s, s', h => by
    simp only [Stmt.visitList] at h
    obtain ⟨s1, h1, h⟩ := bind_ok.mp h
    exact (visit_stays b s s1 h1).trans (visitList_stays bs s1 s' h)
theorem visitCases_stays (comp : Ex) : ∀ (cs : List (Option (List Ex))) (bs : List Stmt) {s s' : BV} {fs : List ScopeChain},
    Stmt.visitCases comp cs bs s = .ok (s', fs) → ∀ c, s.frames.has c = true → s'.frames.has c = true
  | c :: cs, b :: bs, s, s', fs, h => by
    simp only [Stmt.visitCases] at h
    obtain ⟨e, _, h⟩ := bind_ok.mp h
    obtain ⟨⟨l, s1⟩, h1, h⟩ := bind_ok.mp h
    simp only at h
    obtain ⟨s2, h2, h⟩ := bind_ok.mp h
    obtain ⟨s3, h3, h⟩ := bind_ok.mp h
    obtain ⟨s4, h4, h⟩ := bind_ok.mp h
    have L : Stays s s1 := label_stays h1
    have H : ∀ c, s.frames.has c = true → s4.frames.has c = true := fun c hc =>
      (visit_stays b s3 s4 h4).2 c ((copyNonblocking_stays h3).2 c ((enter_stays h2).2.2.2 c (L.2 c hc)))
    split at h
    · simp only [ok_inj, Prod.mk.injEq] at h
      obtain ⟨rfl, _⟩ := h
      exact H
    · obtain ⟨s5, h5, h⟩ := bind_ok.mp h
      obtain ⟨s6, h6, h⟩ := bind_ok.mp h
      obtain ⟨⟨s7, gs⟩, h7, h⟩ := bind_ok.mp h
      simp only [ok_inj, Prod.mk.injEq] at h
      obtain ⟨rfl, _⟩ := h
      exact fun c hc => visitCases_stays comp cs bs h7 c ((copyNonblocking_stays h6).2 c ((enter_stays h5).2.2.2 c (H c hc)))
  | [], bs, s, s', fs, h => by
    simp only [Stmt.visitCases, ok_inj, Prod.mk.injEq] at h
    obtain ⟨rfl, _⟩ := h; exact fun _ hc => hc
  | c :: cs, [], s, s', fs, h => by
    simp only [Stmt.visitCases, ok_inj, Prod.mk.injEq] at h
    obtain ⟨rfl, _⟩ := h; exact fun _ hc => hc
end

end Pyv
