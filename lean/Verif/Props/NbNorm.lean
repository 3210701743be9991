import Verif.Props.NbRight
import Verif.Props.ResolveProps
/-
  C58: the conversions of the visitor do not depend on the scope when all signals belong to the module and nothing was
  assigned by blocking assignments; expressions without conditional operators give trees that `reorder` keeps.
-/
namespace Pyv

/-! ### More answers, same conversions -/

mutual
/-- No hierarchical names; replication counts are integer constants. -/
def Ex.flat : Ex → Bool
  | .ident sc _ => sc.isEmpty
  | .uplus e => e.flat
  | .un _ e => e.flat
  | .bin _ a b => a.flat && b.flat
  | .cond c t f => c.flat && t.flat && f.flat
  | .psel v m l => v.flat && m.flat && l.flat
  | .ptr v p => v.flat && p.flat
  | .concat es => Ex.flatL es
  | .rep (.intc _) v => v.flat
  | .rep _ _ => false
  | .call _ es => Ex.flatL es
  | .sys _ es => Ex.flatL es
  | _ => true
/-- `Ex.flat` of all. -/
def Ex.flatL : List Ex → Bool
  | [] => true
  | e :: es => e.flat && Ex.flatL es
end

theorem flatL_iff {es : List Ex} : Ex.flatL es = true ↔ ∀ e ∈ es, e.flat = true := by
  induction es with
  | nil => simp [Ex.flatL]
  | cons e es ih => simp [Ex.flatL, ih]

theorem makeDF_mono {E E' : ExprEnv} (hf : ∀ n r, E.find n = .ok r → E'.find n = .ok r)
    (hd : ∀ n r, E.dims n = .ok r → E'.dims n = .ok r)
    (ht : ∀ l r, E.times (.intc l) = .ok r → E'.times (.intc l) = .ok r) (e : Ex) :
    e.flat = true → ∀ t, E.makeDF e = .ok t → E'.makeDF e = .ok t := by
  have hl : ∀ (es : List Ex) (_ : ∀ e ∈ es, e.flat = true → ∀ t, E.makeDF e = .ok t → E'.makeDF e = .ok t) (_ : Ex.flatL es = true) ts,
      E.makeDFList es = .ok ts → E'.makeDFList es = .ok ts := by
    intro es
    induction es with
    | nil => intro _ _ ts h; exact h
    | cons e es ih =>
      intro hh hfl ts h
      simp only [Ex.flatL, Bool.and_eq_true] at hfl
      simp only [ExprEnv.makeDFList, bind_ok, ok_inj] at h ⊢
      obtain ⟨a, ha, as, has, rfl⟩ := h
      exact ⟨a, hh e (by simp) hfl.1 _ ha, as, ih (fun e he => hh e (by simp [he])) hfl.2 _ has, rfl⟩
  induction e using Ex.ind with
  | ident s n =>
    intro hfl t h
    cases s with
    | nil =>
      simp only [ExprEnv.makeDF, bind_ok] at h ⊢
      obtain ⟨r, hr, h⟩ := h
      exact ⟨r, hf _ _ hr, h⟩
    | cons a as => simp [Ex.flat] at hfl
  | intc s => intro _ t h; simpa [ExprEnv.makeDF] using h
  | fltc s => intro _ t h; simpa [ExprEnv.makeDF] using h
  | strc s => intro _ t h; simpa [ExprEnv.makeDF] using h
  | uplus e _ => intro _ t h; simp [ExprEnv.makeDF] at h
  | un o e ih =>
    intro hfl t h
    simp only [Ex.flat] at hfl
    simp only [ExprEnv.makeDF, bind_ok] at h ⊢
    obtain ⟨a, ha, h⟩ := h
    exact ⟨a, ih hfl _ ha, h⟩
  | bin o a b iha ihb =>
    intro hfl t h
    simp only [Ex.flat, Bool.and_eq_true] at hfl
    simp only [ExprEnv.makeDF, bind_ok] at h ⊢
    obtain ⟨a', ha, b', hb, h⟩ := h
    exact ⟨a', iha hfl.1 _ ha, b', ihb hfl.2 _ hb, h⟩
  | cond c t f ihc iht ihf =>
    intro hfl r h
    simp only [Ex.flat, Bool.and_eq_true] at hfl
    simp only [ExprEnv.makeDF, bind_ok] at h ⊢
    obtain ⟨t', ht', f', hf', c', hc', h⟩ := h
    exact ⟨t', iht hfl.1.2 _ ht', f', ihf hfl.2 _ hf', c', ihc hfl.1.1 _ hc', h⟩
  | psel v m l ihv ihm ihl =>
    intro hfl r h
    simp only [Ex.flat, Bool.and_eq_true] at hfl
    simp only [ExprEnv.makeDF, bind_ok] at h ⊢
    obtain ⟨t', ht', f', hf', c', hc', h⟩ := h
    exact ⟨t', ihv hfl.1.1 _ ht', f', ihm hfl.1.2 _ hf', c', ihl hfl.2 _ hc', h⟩
  | ptr v p ihv ihp =>
    intro hfl r h
    simp only [Ex.flat, Bool.and_eq_true] at hfl
    simp only [ExprEnv.makeDF, bind_ok] at h ⊢
    obtain ⟨v', hv', p', hp', h⟩ := h
    refine ⟨v', ihv hfl.1 _ hv', p', ihp hfl.2 _ hp', ?_⟩
    cases v' <;> first | exact h | skip
    simp only [bind_ok] at h ⊢
    obtain ⟨d, hd', h⟩ := h
    exact ⟨d, hd _ _ hd', h⟩
  | concat es ih =>
    intro hfl r h
    simp only [Ex.flat] at hfl
    simp only [ExprEnv.makeDF, bind_ok] at h ⊢
    obtain ⟨ts, hts, h⟩ := h
    exact ⟨ts, hl es ih hfl _ hts, h⟩
  | rep t v iht ihv =>
    intro hfl r h
    cases t <;> simp only [Ex.flat, Bool.false_eq_true] at hfl
    simp only [ExprEnv.makeDF, bind_ok] at h ⊢
    obtain ⟨t', ht', n, hn, v', hv', h⟩ := h
    cases ht'
    exact ⟨_, rfl, n, ht _ _ hn, v', ihv hfl _ hv', h⟩
  | call f es _ => intro _ t h; simp [ExprEnv.makeDF] at h
  | sys f es ih =>
    intro hfl t h
    simp only [Ex.flat] at hfl
    rw [ExprEnv.makeDF.eq_def] at h ⊢
    simp only at h ⊢
    split
    · rename_i hc
      rw [if_pos hc] at h
      cases es with
      | nil => cases h
      | cons e es => exact ih e (by simp) (flatL_iff.mp hfl e (by simp)) t h
    · rename_i hc
      rw [if_neg hc] at h
      exact h

theorem resolve_mono {R R' : ResEnv} (hl : ∀ n r, R.look n = .ok r → R'.look n = .ok r)
    (hd : ∀ n r, R.dims n = .ok r → R'.dims n = .ok r) (he : ∀ n r, R.elems n = .ok r → R'.elems n = .ok r) (t : DF) :
    ∀ r, R.resolve t = .ok r → R'.resolve t = .ok r := by
  have hL : ∀ (ts : List DF) (_ : ∀ e ∈ ts, ∀ r, R.resolve e = .ok r → R'.resolve e = .ok r) rs,
      R.resolveList ts = .ok rs → R'.resolveList ts = .ok rs := by
    intro es
    induction es with
    | nil => intro _ ts h; exact h
    | cons e es ih =>
      intro hh ts h
      simp only [ResEnv.resolveList, bind_ok, ok_inj] at h ⊢
      obtain ⟨a, ha, as, has, rfl⟩ := h
      exact ⟨a, hh e (by simp) _ ha, as, ih (fun e he => hh e (by simp [he])) _ has, rfl⟩
  induction t using DF.ind with
  | term n => intro r h; exact hl _ _ h
  | op o ns ih =>
    intro r h
    simp only [ResEnv.resolve, bind_ok] at h ⊢
    obtain ⟨rs, hrs, h⟩ := h
    exact ⟨rs, hL ns ih _ hrs, h⟩
  | concat ns ih =>
    intro r h
    simp only [ResEnv.resolve, bind_ok] at h ⊢
    obtain ⟨rs, hrs, h⟩ := h
    exact ⟨rs, hL ns ih _ hrs, h⟩
  | branch c t f ihc iht ihf =>
    intro r h
    simp only [ResEnv.resolve, bind_ok] at h ⊢
    obtain ⟨t', ht', f', hf', c', hc', h⟩ := h
    exact ⟨t', iht _ ht', f', ihf _ hf', c', ihc _ hc', h⟩
  | psel v m l ihv ihm ihl =>
    intro r h
    simp only [ResEnv.resolve, bind_ok] at h ⊢
    obtain ⟨t', ht', f', hf', c', hc', h⟩ := h
    exact ⟨t', ihm _ ht', f', ihl _ hf', c', ihv _ hc', h⟩
  | ptr v p ihv ihp =>
    intro r h
    simp only [ResEnv.resolve, bind_ok] at h ⊢
    obtain ⟨p', hp', a, ha, h⟩ := h
    refine ⟨p', ihp _ hp', a, ?_, ?_⟩
    · cases v <;> first | exact ha | exact hd _ _ ha
    · cases a
      · simp only [Bool.false_eq_true, if_false, bind_ok] at h ⊢
        obtain ⟨v', hv', h⟩ := h
        exact ⟨v', ihv _ hv', h⟩
      · simp only [if_true] at h ⊢
        cases v <;> first | exact h | skip
        simp only [bind_ok] at h ⊢
        obtain ⟨bs, hbs, h⟩ := h
        exact ⟨bs, he _ _ hbs, h⟩
  | _ => intro r h; exact h

/-! ### Normal forms -/

theorem hoistList_plain {k : List DF → Py DF} {done ns : List DF} (h : ∀ n ∈ ns, n.isBranch = false) :
    hoistList k done ns = k (done ++ ns) := by
  induction ns generalizing done with
  | nil => simp [hoistList]
  | cons n ns ih =>
    have hn := h n (by simp)
    have : ∀ g : DF → Py DF, hoistNode g n = g n := by
      intro g
      cases n <;> first | rfl | (simp [DF.isBranch] at hn)
    rw [hoistList, this, ih (fun m hm => h m (by simp [hm]))]
    simp

theorem noCondL_iff {es : List Ex} : Ex.noCondL es = true ↔ ∀ e ∈ es, e.noCond = true := by
  induction es with
  | nil => simp [Ex.noCondL]
  | cons a es ih => simp [Ex.noCondL, ih]

theorem makeDF_nf {E : ExprEnv} (e : Ex) : ∀ t, e.noCond = true → E.makeDF e = .ok t → nf false t := by
  have hl : ∀ (es : List Ex) (_ : ∀ e ∈ es, ∀ t, e.noCond = true → E.makeDF e = .ok t → nf false t) ts,
      (∀ e ∈ es, e.noCond = true) → E.makeDFList es = .ok ts → nfL ts := by
    intro es
    induction es with
    | nil => intro _ ts _ h; simp only [ExprEnv.makeDFList, ok_inj] at h; subst h; simp [nfL]
    | cons e es ih =>
      intro hh ts hn h
      simp only [ExprEnv.makeDFList, bind_ok, ok_inj] at h
      obtain ⟨a, ha, as, has, rfl⟩ := h
      exact ⟨hh e (by simp) _ (hn e (by simp)) ha, ih (fun e he => hh e (by simp [he])) _ (fun e he => hn e (by simp [he])) has⟩
  induction e using Ex.ind with
  | ident s n =>
    intro t _ h
    cases s with
    | nil =>
      simp only [ExprEnv.makeDF, bind_ok] at h
      obtain ⟨r, hr, h⟩ := h
      cases r with
      | none => cases h
      | some c => simp only [ok_inj] at h; subst h; simp [nf]
    | cons a as =>
      simp only [ExprEnv.makeDF, bind_ok, ok_inj] at h
      obtain ⟨r, hr, rfl⟩ := h
      simp [nf]
  | intc s => intro t _ h; simp only [ExprEnv.makeDF, ok_inj] at h; subst h; simp [nf]
  | fltc s => intro t _ h; simp only [ExprEnv.makeDF, ok_inj] at h; subst h; simp [nf]
  | strc s => intro t _ h; simp only [ExprEnv.makeDF, ok_inj] at h; subst h; simp [nf]
  | uplus e _ => intro t _ h; simp [ExprEnv.makeDF] at h
  | un o e ih =>
    intro t hn h
    simp only [ExprEnv.makeDF, bind_ok] at h
    obtain ⟨a, ha, h⟩ := h
    have h1 := ih a (by simpa [Ex.noCond] using hn) ha
    rw [insertOpList, hoistList_plain (by intro n hn; simp only [List.mem_singleton] at hn; subst hn; exact nf_false_not_branch h1)] at h
    obtain ⟨rfl, h2⟩ := DF.mkOp_ok h
    exact ⟨by simp [nfL, h1], h2⟩
  | bin o a b iha ihb =>
    intro t hn h
    simp only [Ex.noCond, Bool.and_eq_true] at hn
    simp only [ExprEnv.makeDF, bind_ok] at h
    obtain ⟨a', ha, b', hb, h⟩ := h
    have h1 := iha a' hn.1 ha
    have h2 := ihb b' hn.2 hb
    rw [insertOpList, hoistList_plain (by
      intro n hn
      simp only [List.mem_cons, List.not_mem_nil, or_false] at hn
      rcases hn with rfl | rfl
      · exact nf_false_not_branch h1
      · exact nf_false_not_branch h2)] at h
    obtain ⟨rfl, h3⟩ := DF.mkOp_ok h
    exact ⟨by simp [nfL, h1, h2], h3⟩
  | cond c t f _ _ _ => intro t hn; simp [Ex.noCond] at hn
  | psel v m l ihv ihm ihl =>
    intro t hn h
    simp only [Ex.noCond, Bool.and_eq_true] at hn
    simp only [ExprEnv.makeDF, bind_ok] at h
    obtain ⟨v', hv', m', hm', l', hl', h⟩ := h
    have h1 := ihv _ hn.1.1 hv'
    rw [if_neg (by simp [nf_false_not_branch h1])] at h
    simp only [ok_inj] at h
    subst h
    exact ⟨h1, ihm _ hn.1.2 hm', ihl _ hn.2 hl'⟩
  | ptr v p ihv ihp =>
    intro t hn h
    simp only [Ex.noCond, Bool.and_eq_true] at hn
    simp only [ExprEnv.makeDF, bind_ok] at h
    obtain ⟨v', hv', p', hp', h⟩ := h
    have h1 := ihv _ hn.1 hv'
    have h2 := ihp _ hn.2 hp'
    by_cases hterm : ∃ n, v' = .term n
    · obtain ⟨n, rfl⟩ := hterm
      simp only [bind_ok, ok_inj] at h
      obtain ⟨d, hd, rfl⟩ := h
      cases d
      · exact ⟨h1, h2, h2⟩
      · exact ⟨h1, h2⟩
    · have hr : t = .psel v' p' p' := by
        cases v' <;> first | exact (Except.ok.inj h).symm | (rename_i n; exact absurd ⟨n, rfl⟩ hterm)
      subst hr
      exact ⟨h1, h2, h2⟩
  | concat es ih =>
    intro t hn h
    simp only [Ex.noCond] at hn
    simp only [ExprEnv.makeDF, bind_ok] at h
    obtain ⟨ts, hts, h⟩ := h
    have h1 := hl es ih ts (noCondL_iff.mp hn) hts
    rw [if_neg (by simp [nfL_any h1])] at h
    simp only [ok_inj] at h
    subst h
    exact h1
  | rep t v _ ihv =>
    intro r hn h
    simp only [Ex.noCond, Bool.and_eq_true] at hn
    simp only [ExprEnv.makeDF, bind_ok, ok_inj] at h
    obtain ⟨t', ht', n, hn', v', hv', rfl⟩ := h
    have h1 := ihv _ hn.2 hv'
    rw [nf.eq_def]
    simp only
    rw [nfL_iff]
    intro m hm
    rw [List.mem_replicate] at hm
    rw [hm.2]
    exact h1
  | call f es _ => intro t _ h; simp [ExprEnv.makeDF] at h
  | sys f es ih =>
    intro t hn h
    simp only [Ex.noCond] at hn
    rw [ExprEnv.makeDF.eq_def] at h
    simp only at h
    split at h
    · cases es with
      | nil => cases h
      | cons e es => exact ih e (by simp) t (noCondL_iff.mp hn e (by simp)) h
    · simp only [ok_inj] at h; subst h; simp [nf]

theorem resolve_nf {R : ResEnv} (hl : ∀ n r, R.look n = .ok r → r = .term n) (he : ∀ n r, R.elems n = .ok r → r = []) (t : DF) :
    ∀ r, nf true t → R.resolve t = .ok r → r = t := by
  have hL : ∀ (ts : List DF) (_ : ∀ e ∈ ts, ∀ r, nf true e → R.resolve e = .ok r → r = e) rs,
      nfL ts → R.resolveList ts = .ok rs → rs = ts := by
    intro es
    induction es with
    | nil => intro _ ts _ h; simpa [ResEnv.resolveList] using h.symm
    | cons e es ih =>
      intro hh ts hn h
      simp only [ResEnv.resolveList, bind_ok, ok_inj] at h
      obtain ⟨a, ha, as, has, rfl⟩ := h
      rw [hh e (by simp) _ (nf_true_of_false hn.1) ha, ih (fun e he => hh e (by simp [he])) _ hn.2 has]
  induction t using DF.ind with
  | term n => intro r _ h; exact hl _ _ h
  | op o ns ih =>
    intro r hn h
    simp only [ResEnv.resolve, bind_ok] at h
    obtain ⟨rs, hrs, h⟩ := h
    have := hL ns ih _ hn.1 hrs
    subst this
    rw [if_neg (by simp [nfL_any hn.1])] at h
    exact (DF.mkOp_ok h).1
  | concat ns ih =>
    intro r hn h
    simp only [ResEnv.resolve, bind_ok] at h
    obtain ⟨rs, hrs, h⟩ := h
    have hn' : nfL ns := hn
    have := hL ns ih _ hn' hrs
    subst this
    rw [if_neg (by simp [nfL_any hn'])] at h
    exact (Except.ok.inj h).symm
  | branch c t f ihc iht ihf =>
    intro r hn h
    simp only [ResEnv.resolve, bind_ok, ok_inj] at h
    obtain ⟨t', ht', f', hf', c', hc', rfl⟩ := h
    rw [iht _ hn.2.2.1 ht', ihf _ hn.2.2.2 hf', ihc _ (nf_true_of_false hn.2.1) hc',
      if_neg (by simp [nf_false_not_branch hn.2.1])]
  | psel v m l ihv ihm ihl =>
    intro r hn h
    simp only [ResEnv.resolve, bind_ok] at h
    obtain ⟨m', hm', l', hl', v', hv', h⟩ := h
    have := ihv _ (nf_true_of_false hn.1) hv'
    subst this
    rw [if_neg (by simp [nf_false_not_branch hn.1])] at h
    rw [ihm _ (nf_true_of_false hn.2.1) hm', ihl _ (nf_true_of_false hn.2.2) hl'] at h
    exact (Except.ok.inj h).symm
  | ptr v p ihv ihp =>
    intro r hn h
    simp only [ResEnv.resolve, bind_ok] at h
    obtain ⟨p', hp', a, ha, h⟩ := h
    have := ihp _ (nf_true_of_false hn.2) hp'
    subst this
    cases a
    · simp only [Bool.false_eq_true, if_false, bind_ok] at h
      obtain ⟨v', hv', h⟩ := h
      have := ihv _ (nf_true_of_false hn.1) hv'
      subst this
      rw [if_neg (by simp [nf_false_not_branch hn.1])] at h
      exact (Except.ok.inj h).symm
    · simp only [if_true] at h
      cases v <;> first | (simp at h; done) | skip
      simp only [bind_ok] at h
      obtain ⟨bs, hbs, h⟩ := h
      have := he _ _ hbs
      subst this
      simp only [List.foldlM_nil, pure, Except.pure, ok_inj] at h
      exact h.symm
  | undef w => intro r _ h; simp [ResEnv.resolve] at h
  | hiz w => intro r _ h; simp [ResEnv.resolve] at h
  | delay n _ => intro r _ h; simp [ResEnv.resolve] at h
  | sys s ns _ => intro r _ h; simp [ResEnv.resolve] at h
  | _ => intro r _ h; simpa [ResEnv.resolve] using h.symm

theorem reorder_nf_id {t : DF} (hn : nf true t) : ∀ k r, reorder k t = .ok r → r = t := by
  induction t using DF.ind with
  | branch c t f ihc iht ihf =>
    intro k r h
    cases k with
    | zero => simp [reorder] at h
    | succ k =>
      simp only [reorder, bind_ok, ok_inj] at h
      obtain ⟨t', ht', f', hf', c', hc', rfl⟩ := h
      rw [iht hn.2.2.1 _ _ ht', ihf hn.2.2.2 _ _ hf', ihc (nf_true_of_false hn.2.1) _ _ hc',
        if_neg (by simp [nf_false_not_branch hn.2.1])]
  | op o ns ih =>
    intro k r h
    cases k with
    | zero => simp [reorder] at h
    | succ k =>
      simp only [reorder, bind_ok] at h
      obtain ⟨rs, hrs, h⟩ := h
      have : rs = ns := by
        rw [mapM_ok] at hrs
        have hh := hn.1
        clear hn h
        induction hrs with
        | nil => rfl
        | cons h1 h2 ihl =>
          rw [ih _ (by simp) (nf_true_of_false hh.1) _ _ h1, ihl (fun n hn => ih n (by simp [hn])) hh.2]
      subst this
      rw [if_neg (by simp [nfL_any hn.1])] at h
      exact (DF.mkOp_ok h).1
  | concat ns ih =>
    intro k r h
    have hnn : nfL ns := hn
    cases k with
    | zero => simp [reorder] at h
    | succ k =>
      simp only [reorder, bind_ok] at h
      obtain ⟨rs, hrs, h⟩ := h
      have : rs = ns := by
        rw [mapM_ok] at hrs
        have hh := hnn
        clear hn hnn h
        induction hrs with
        | nil => rfl
        | cons h1 h2 ihl =>
          rw [ih _ (by simp) (nf_true_of_false hh.1) _ _ h1, ihl (fun n hn => ih n (by simp [hn])) hh.2]
      subst this
      rw [if_neg (by simp [nfL_any hnn])] at h
      exact (Except.ok.inj h).symm
  | psel v m l ihv ihm ihl =>
    intro k r h
    cases k with
    | zero => simp [reorder] at h
    | succ k =>
      simp only [reorder, bind_ok] at h
      obtain ⟨m', hm', l', hl', v', hv', h⟩ := h
      rw [ihm (nf_true_of_false hn.2.1) _ _ hm', ihl (nf_true_of_false hn.2.2) _ _ hl', ihv (nf_true_of_false hn.1) _ _ hv',
        if_neg (by simp [nf_false_not_branch hn.2.1, nf_false_not_branch hn.2.2]), if_neg (by simp [nf_false_not_branch hn.1])] at h
      exact (Except.ok.inj h).symm
  | ptr v p ihv ihp =>
    intro k r h
    cases k with
    | zero => simp [reorder] at h
    | succ k =>
      simp only [reorder, bind_ok] at h
      obtain ⟨p', hp', v', hv', h⟩ := h
      have e1 := ihp (nf_true_of_false hn.2) _ _ hp'
      have e2 := ihv (nf_true_of_false hn.1) _ _ hv'
      subst e1 e2
      have hb := nf_false_not_branch hn.2
      cases p' <;> first | (simp [DF.isBranch] at hb; done) | skip
      all_goals
        simp only [nf_false_not_branch hn.1, Bool.false_eq_true, if_false, ok_inj] at h
        exact h.symm
  | delay n ih =>
    intro k r h
    cases k with
    | zero => simp [reorder] at h
    | succ k =>
      simp only [reorder, bind_ok, ok_inj] at h
      obtain ⟨n', hn', rfl⟩ := h
      rw [ih hn _ _ hn']
  | sys s ns _ => exact absurd hn (by simp [nf])
  | _ =>
    intro k r h
    cases k with
    | zero => simp [reorder] at h
    | succ k => simp only [reorder, ok_inj] at h; exact h.symm

end Pyv
