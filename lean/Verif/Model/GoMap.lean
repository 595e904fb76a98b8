import Verif.Basic

/-! # Go maps

A Go map is modelled by a list of bindings, newest value in place.  The code never iterates
over the maps modelled here, so the order of the bindings does not matter. -/

namespace GoMatcher

/-- A Go `map[κ]ν`. -/
abbrev GoMap (κ ν : Type) := List (κ × ν)

namespace GoMap

variable {κ ν : Type} [DecidableEq κ]

/-- `v, ok := m[k]`. -/
def get (m : GoMap κ ν) (k : κ) : Option ν :=
  match m with
  | [] => none
  | (k', v) :: m => if k' = k then some v else get m k

/-- `m[k] = v`. -/
def set (m : GoMap κ ν) (k : κ) (v : ν) : GoMap κ ν :=
  match m with
  | [] => [(k, v)]
  | (k', v') :: m => if k' = k then (k, v) :: m else (k', v') :: set m k v

/-- `delete(m, k)`. -/
def delete (m : GoMap κ ν) (k : κ) : GoMap κ ν :=
  match m with
  | [] => []
  | (k', v') :: m => if k' = k then delete m k else (k', v') :: delete m k

@[simp] theorem get_nil (k : κ) : get ([] : GoMap κ ν) k = none := rfl

theorem get_set (m : GoMap κ ν) (k k' : κ) (v : ν) :
    (m.set k v).get k' = if k = k' then some v else m.get k' := by
  induction m with
  | nil => simp [set, get]
  | cons p m ih =>
    obtain ⟨a, b⟩ := p
    unfold set
    by_cases h : a = k
    · subst h
      rw [if_pos rfl]
      by_cases h2 : a = k' <;> simp [get, h2]
    · rw [if_neg h]
      by_cases h2 : a = k'
      · subst h2
        have : ¬ k = a := fun e => h e.symm
        simp [get, this]
      · simp [get, h2, ih]

theorem get_set_self (m : GoMap κ ν) (k : κ) (v : ν) : (m.set k v).get k = some v := by
  simp [get_set]

theorem get_delete (m : GoMap κ ν) (k k' : κ) :
    (m.delete k).get k' = if k = k' then none else m.get k' := by
  induction m with
  | nil => simp [delete, get]
  | cons p m ih =>
    obtain ⟨a, b⟩ := p
    unfold delete
    by_cases h : a = k
    · subst h
      rw [if_pos rfl, ih]
      by_cases h2 : a = k' <;> simp [get, h2]
    · rw [if_neg h]
      by_cases h2 : a = k'
      · subst h2
        have : ¬ k = a := fun e => h e.symm
        simp [get, this]
      · simp [get, h2, ih]

end GoMap

end GoMatcher
