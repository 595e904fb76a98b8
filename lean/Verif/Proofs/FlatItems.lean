import Verif.Model.Glob
import Verif.Proofs.ItemSem

/-! # Items without nesting -/

namespace GoMatcher

/-- No list, group or chain. -/
def Simple : Item → Prop
  | .list _ | .group _ _ _ | .chain _ _ _ => False
  | _ => True

/-- The values of groups are sequences of simple items. -/
def FlatItem : Item → Prop
  | .group vals _ _ => ∀ v ∈ vals, ∀ x ∈ groupItems v, Simple x
  | _ => True

/-- No star, also not inside a group. -/
def StarFree : Item → Prop
  | .star _ => False
  | .group vals _ _ => ∀ v ∈ vals, ∀ x ∈ groupItems v, ∀ n, x ≠ .star n
  | _ => True

/-- A star that may stand for nothing is the last item. -/
def StarLast : List Item → Prop
  | [] => True
  | it :: rest => (it = .star 0 → rest = []) ∧ StarLast rest

/-- The values of groups are sequences of simple items with stars at the end only. -/
def FlatTerm : Item → Prop
  | .group vals _ _ => ∀ v ∈ vals, (∀ x ∈ groupItems v, Simple x) ∧ StarLast (groupItems v)
  | _ => True

end GoMatcher
