import Verif.Py
/-
  Python dictionaries as association lists in insertion order.
-/
namespace Pyv

/-- A Python `dict`: keys in insertion order, no key twice (see `Dict.Nodup`). -/
abbrev Dict (κ α : Type) := List (κ × α)

variable {κ α : Type} [DecidableEq κ]

/-- `d.get(k)`. -/
def Dict.get? (d : Dict κ α) (k : κ) : Option α := (d.find? (fun p => decide (p.1 = k))).map (·.2)

/-- `k in d`. -/
def Dict.has (d : Dict κ α) (k : κ) : Bool := d.any (fun p => decide (p.1 = k))

/-- `d[k] = v`: overwrite in place, or append a new key at the end. -/
def Dict.set : Dict κ α → κ → α → Dict κ α
  | [], k, v => [(k, v)]
  | (k', v') :: d, k, v => if k' = k then (k, v) :: d else (k', v') :: Dict.set d k v

/-- `del d[k]` for a present key. -/
def Dict.del (d : Dict κ α) (k : κ) : Dict κ α := d.filter (fun p => decide (p.1 ≠ k))

/-- `d[k]`, KeyError when absent. -/
def Dict.get (d : Dict κ α) (k : κ) : Py α :=
  match d.get? k with
  | some v => .ok v
  | none => .error .key

/-- The keys are distinct. -/
def Dict.Nodup (d : Dict κ α) : Prop := (d.map (·.1)).Nodup

theorem Dict.get?_nil (k : κ) : Dict.get? ([] : Dict κ α) k = none := rfl

theorem Dict.get?_cons (p : κ × α) (d : Dict κ α) (k : κ) :
    Dict.get? (p :: d) k = if p.1 = k then some p.2 else Dict.get? d k := by
  unfold Dict.get?
  simp only [List.find?_cons]
  by_cases h : p.1 = k <;> simp [h]

theorem Dict.has_eq (d : Dict κ α) (k : κ) : d.has k = (d.get? k).isSome := by
  induction d with
  | nil => rfl
  | cons p d ih =>
    rw [Dict.get?_cons]
    by_cases h : p.1 = k <;> simp_all [Dict.has]

theorem Dict.get?_set (d : Dict κ α) (k k' : κ) (v : α) :
    (d.set k v).get? k' = if k = k' then some v else d.get? k' := by
  induction d with
  | nil => simp [Dict.set, Dict.get?_cons, Dict.get?_nil]
  | cons p d ih =>
    obtain ⟨a, b⟩ := p
    simp only [Dict.set]
    by_cases h : a = k
    · subst h
      simp only [if_true, Dict.get?_cons]
      by_cases h2 : a = k' <;> simp [h2]
    · simp only [h, if_false, Dict.get?_cons, ih]
      by_cases h2 : a = k'
      · subst h2
        simp only [if_true]
        rw [if_neg (fun e => h e.symm)]
      · simp [h2]

theorem Dict.mem_of_get? {d : Dict κ α} {k : κ} {v : α} (h : d.get? k = some v) : (k, v) ∈ d := by
  induction d with
  | nil => simp [Dict.get?_nil] at h
  | cons p d ih =>
    rw [Dict.get?_cons] at h
    by_cases hk : p.1 = k
    · simp [hk] at h; subst hk; subst h; simp
    · simp [hk] at h; exact List.mem_cons_of_mem _ (ih h)

theorem Dict.keys_set (d : Dict κ α) (k : κ) (v : α) :
    (d.set k v).map (·.1) = if d.has k then d.map (·.1) else d.map (·.1) ++ [k] := by
  induction d with
  | nil => simp [Dict.set, Dict.has]
  | cons p d ih =>
    obtain ⟨a, b⟩ := p
    simp only [Dict.set]
    by_cases h : a = k
    · subst h; simp [Dict.has]
    · have hh : Dict.has ((a, b) :: d) k = Dict.has d k := by simp [Dict.has, h]
      simp only [h, if_false, List.map_cons, ih, hh]
      by_cases h2 : Dict.has d k = true
      · simp [h2]
      · simp [h2]

theorem Dict.nodup_set {d : Dict κ α} (h : d.Nodup) (k : κ) (v : α) : (d.set k v).Nodup := by
  unfold Dict.Nodup at *
  rw [Dict.keys_set]
  split
  · exact h
  · rename_i hk
    rw [List.nodup_append]
    refine ⟨h, by simp, ?_⟩
    intro a ha b hb
    simp at hb; subst hb
    rintro rfl
    apply hk
    obtain ⟨p, hp, rfl⟩ := List.mem_map.mp ha
    simp only [Dict.has, List.any_eq_true]
    exact ⟨p, hp, by simp⟩

end Pyv
