import Verif.Props.GenMain
/-
  C85: the scopes of a design.
-/
namespace Pyv

theorem signalPass_shows {ctx : OptCtx} {fuel loops depth : Nat} {ms : List ModuleDef} {top : Str} {M : ModuleDef} {d ds sc s}
    (hctx : ctx.consts = []) (hM : findMod ms top = some M) (hnd : M.paramNames.Nodup)
    (hO : Opens ms (0 ≤ ·) false [[]] (.items M.all) [d] ds sc) (h : signalPass ctx fuel loops depth ms top = .ok s) :
    List.Forall₂ (ShowsScope s.octx.consts []) (s.frames.filter (fun e => !e.2.isAlways)) (scopeTree (.inst top) ds d sc) ∧
      (s.frames.map (·.1)).Nodup := by
  unfold signalPass at h
  obtain ⟨T, hT, h⟩ := bind_ok.mp h
  simp only at h
  obtain ⟨s1, h1, h⟩ := bind_ok.mp h
  have hTO := modTable_ok hT
  have hTV := modTable_vars hT
  obtain ⟨hdef, _, hcs, hsg⟩ := table_module hTO hTV hM
  have hcs := hcs hnd
  obtain ⟨sg, f1, hsg1, hfc, hfs, P⟩ := stack_phase (by
    intro c n _
    show Dict.get? ctx.consts _ = none
    rw [hctx]; rfl) hcs h1
  have hr := P.ready rfl rfl (by
    intro c n _
    show Dict.get? ctx.consts _ = none
    rw [hctx]; rfl)
  cases depth with
  | zero => simp [SV.visitModule] at h
  | succ k =>
    have G := runs_grew hTO hTV hO k s1 s hr (visitModule_all hdef h)
    obtain ⟨f, f', new, A⟩ := G.view
    have hdecl := hO.tableNodes
    have hmem : ∀ x, f1.vars.const.has x = true ↔ x ∈ M.parameters.map (·.name) := by
      intro x
      rw [hfc]
      show Dict.has _ _ = true ↔ _
      rw [Dict.has_iff_key, List.map_map]
      rfl
    have hfe : f = f1 := by
      have := A.old
      rw [P.cur, P.get] at this
      exact (Option.some.inj this).symm
    subst hfe
    have hcur : s1.current = [⟨top, .module, none⟩] := P.cur
    have hv0 : s1.view = [([⟨top, .module, none⟩], f)] := P.view
    have hview : s.view = ([⟨top, .module, none⟩], f') :: new := by
      rw [A.view, hv0, hcur]; simp [Dict.set]
    have halw : f'.isAlways = false := by rw [A.vars]; exact P.alw
    have hkeys : (s.frames.map (·.1)) = s.view.map (·.1) := by
      unfold SV.view; rw [List.map_map]; rfl
    refine ⟨?_, ?_⟩
    · have hsv : List.Forall₂ (ShowsScope s.octx.consts []) (s.view.filter (fun e => !e.2.isAlways)) (scopeTree (.inst top) ds d sc) := by
        rw [hview, List.filter_cons_of_pos (by simp [halw])]
        unfold scopeTree
        refine .cons ⟨⟨_, rfl, .cons .inst .nil⟩, ?_, ?_, ?_⟩ ?_
        · intro n
          rw [A.consts]
          constructor
          · rintro (h | h)
            · obtain ⟨p, hp, rfl⟩ := List.mem_map.mp ((hmem n).mp h)
              exact ⟨_, hdecl _ (param_node hp), rfl⟩
            · exact h
          · exact .inr
        · intro n
          rw [A.names]
          constructor
          · rintro (h | h)
            · rw [Bool.or_eq_true] at h
              rcases h with h | h
              · obtain ⟨p, hp, rfl⟩ := List.mem_map.mp ((hmem n).mp h)
                exact ⟨_, hdecl _ (param_node hp), rfl⟩
              · rw [hfs] at h
                obtain ⟨y, hy, e⟩ := hsg sg hsg1 n h
                exact ⟨y, hdecl y hy, e⟩
            · exact h
          · exact .inr
        · intro n v hn
          obtain ⟨f2, d', σ', e, _, hD⟩ := G.env.here
          simp only [List.cons.injEq] at e
          simp only at hn
          rw [e.1] at hn
          rw [hcur] at hD
          exact (hD.some_ n v hn).2
        · rw [List.forall₂_map_right_iff]
          refine forall₂_imp_both A.shows ?_
          intro e _ x _ hx
          obtain ⟨ls, hl, hfl⟩ := hx.name
          exact ⟨⟨⟨top, .module, none⟩ :: ls, by rw [hl, hcur]; rfl, .cons .inst hfl⟩, hx.consts, hx.names, hx.vals⟩
      have hmap : s.view.filter (fun e => !e.2.isAlways) = (s.frames.filter (fun e => !e.2.isAlways)).map (fun e => (e.1, e.2.core)) := by
        unfold SV.view
        rw [List.filter_map]
        rfl
      rw [hmap, List.forall₂_map_left_iff] at hsv
      exact hsv.imp (fun e x h => ⟨h.name, h.consts, h.names, h.vals⟩)
    · rw [hkeys, hview, List.map_cons, List.nodup_cons]
      refine ⟨?_, A.nodup⟩
      intro hm
      obtain ⟨e, he, e1⟩ := List.mem_map.mp hm
      have := A.newKeys e he
      rw [e1, hv0] at this
      simp [Dict.has] at this

end Pyv
