import Verif.Py
import Mathlib.Data.List.Forall2
/-
  Lemmas about the exception monad.
-/
namespace Pyv

theorem bind_ok {α β : Type} {x : Py α} {f : α → Py β} {y : β} :
    (x >>= f) = .ok y ↔ ∃ a, x = .ok a ∧ f a = .ok y := by
  cases x with
  | error e => simp [bind, Except.bind]
  | ok a => simp [bind, Except.bind]

theorem ok_inj {α : Type} {a b : α} : (Except.ok a : Py α) = .ok b ↔ a = b := by simp

theorem mapM_ok {α β : Type} {f : α → Py β} {ns : List α} {rs : List β} :
    ns.mapM f = .ok rs ↔ List.Forall₂ (fun n r => f n = .ok r) ns rs := by
  induction ns generalizing rs with
  | nil =>
    simp only [List.mapM_nil, pure, Except.pure, ok_inj]
    constructor
    · rintro rfl; exact .nil
    · intro h; cases h; rfl
  | cons n ns ih =>
    rw [List.mapM_cons, bind_ok]
    constructor
    · rintro ⟨a, ha, h⟩
      rw [bind_ok] at h
      obtain ⟨as, has, h⟩ := h
      simp only [pure, Except.pure, ok_inj] at h
      subst h
      exact .cons ha (ih.mp has)
    · intro h
      cases h with
      | cons h1 h2 => exact ⟨_, h1, by rw [bind_ok]; exact ⟨_, ih.mpr h2, rfl⟩⟩

theorem obind_some {α β : Type} {x : Option α} {f : α → Option β} {y : β} :
    (x >>= f) = some y ↔ ∃ a, x = some a ∧ f a = some y := by
  cases x with
  | none => simp [bind, Option.bind]
  | some a => simp [bind, Option.bind]

theorem forall₂_imp_mem {α β : Type} {R S : α → β → Prop} {l : List α} {r : List β}
    (h : List.Forall₂ R l r) (hi : ∀ a ∈ l, ∀ b, R a b → S a b) : List.Forall₂ S l r := by
  induction h with
  | nil => exact .nil
  | cons h1 _ ih =>
    exact .cons (hi _ (by simp) _ h1) (ih (fun a ha b hab => hi a (by simp [ha]) b hab))

end Pyv
