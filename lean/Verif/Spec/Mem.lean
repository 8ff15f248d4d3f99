import Verif.Spec.Nodes
/-!
# Memory of a domain tree
-/
namespace R53

/-- exactly `n` nodes are allocated -/
def Dom.Allocated {T : Type} (s : Dom T) (n : Nat) : Prop := ∃ l : List Ptr, l.Nodup ∧ l.length = n ∧ ∀ p, p ∈ l ↔ s.heap p ≠ none

/-- an operation that takes nodes out of the tree one by one -/
def TOp.Removes {T : Type} : TOp T → Prop
  | .removeNode _ | .remove _ => True
  | _ => False

/-- how many nodes the removals of a history take out of a tree -/
def Table.takenOut {T : Type} (M : Table T) : List (TOp T) → Nat
  | [] => 0
  | op :: ops => (match op with
    | .removeNode _ | .remove _ => M.nodes.length - (M.step op).2.nodes.length
    | _ => 0) + (M.step op).2.takenOut ops

end R53
