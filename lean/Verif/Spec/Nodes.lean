import Verif.Spec.Tree
import Mathlib.Data.List.Dedup
/-!
# The nodes of a domain tree, as a table of names

A table lists the names that have a node, in lower case and without the root label, with what a program can see of the node.
Every operation is a function on such tables; it knows nothing of levels, links, colours or addresses.
-/
namespace R53

/-- what a program can see of a node: its value and the flags it can set -/
structure Seen (T : Type) where
  value : Option T
  cb : Bool
  wc : Bool
  deriving DecidableEq

/-- names with their nodes -/
abbrev Nodes (T : Type) := List (List Label × Seen T)

/-- the longest name that two names both end with -/
def meet : List Label → List Label → List Label
  | [], _ => []
  | l :: a, b => if l :: a <:+ b then l :: a else meet a b

namespace Nodes
variable {T : Type}

/-- the node of a name -/
def at? (N : Nodes T) (k : List Label) : Option (Seen T) := (N.find? fun x => x.1 = k).map fun x => x.2

/-- change what is seen of the node of a name -/
def change (N : Nodes T) (k : List Label) (f : Seen T → Seen T) : Nodes T := N.map fun x => if x.1 = k then (x.1, f x.2) else x

/-- the names without a node where the name `n` branches off from a name with a node -/
def branches (N : Nodes T) (n : List Label) : List (List Label) := ((N.map fun x => meet n x.1).dedup).filter fun k => k ≠ n ∧ N.at? k = none

/-- some node is above the name `k`, and the label of `k` right below that node ends with a zero octet -/
def Nul (N : Nodes T) (k : List Label) : Prop := ∃ a j, a :: j <:+ k ∧ N.at? j ≠ none ∧ a.getLast? = some 0

/-- `insert`: the value of the node is replaced; if there is none, it is made, together with one without a value where the name branches off -/
def insert (N : Nodes T) (n : List Label) (v : Option T) : Nodes T :=
  if (N.at? n).isSome then N.change n fun d => { d with value := v }
  else (n, ⟨v, false, false⟩) :: ((N.branches n).map fun k => (k, ⟨none, false, false⟩)) ++ N

/-- what `insert` answers: the value replaced; for a new node it depends on whether there are longer names with the same end -/
def insertAnswer (N : Nodes T) (n : List Label) : Option (Option T) :=
  match N.at? n with
  | some d => some d.value
  | none => if ∃ x ∈ N, n <:+ x.1 then some none else none

/-- a node has become useless when `n` is removed: `n` ends with its name, and so do all names below it, none of which has a value -/
def Useless (N : Nodes T) (n k : List Label) : Prop := k <:+ n ∧ ∀ x ∈ N, k <:+ x.1 → x.1 <:+ n ∧ x.2.value = none

instance (N : Nodes T) (n k : List Label) : Decidable (N.Useless n k) := by
  haveI : ∀ o : Option T, Decidable (o = none) := fun o => match o with | none => isTrue rfl | some _ => isFalse (by simp)
  unfold Useless; infer_instance

/-- `remove_node`: the value goes, and the nodes that have become useless go -/
def removeNode (N : Nodes T) (n : List Label) : Nodes T :=
  if (N.at? n).isSome then (N.change n fun d => { d with value := none }).filter fun x => ¬ Useless (N.change n fun d => { d with value := none }) n x.1
  else N

/-- the longest end of a name that has a node -/
def closest (N : Nodes T) : List Label → Option (List Label)
  | [] => if (N.at? []).isSome then some [] else none
  | l :: a => if (N.at? (l :: a)).isSome then some (l :: a) else N.closest a

end Nodes

/-- a tree: its nodes, and how many nodes `len` counts that are not there any more since a `clear` -/
structure Table (T : Type) where
  nodes : Nodes T
  lost : Nat

namespace Table
variable {T : Type}

def empty : Table T := ⟨[], 0⟩

/-- the value of a name, if it has a node -/
def valueOf (M : Table T) (k : List Label) : Option T := (M.nodes.at? k).bind fun d => d.value

/-- the answer of an operation and the table afterwards -/
def step (M : Table T) : TOp T → Option T × Table T
  | .insert ls v => (M.valueOf (lowerName ls), { M with nodes := M.nodes.insert (lowerName ls) v })
  | .removeNode ls => (M.valueOf (lowerName ls), { M with nodes := M.nodes.removeNode (lowerName ls) })
  | .remove ls =>
    match M.nodes.closest (lowerName ls) with
    | some k => (M.valueOf k, { M with nodes := M.nodes.removeNode k })
    | none => (none, M)
  | .get ls => (M.valueOf (lowerName ls), M)
  | .callback ls b => (none, { M with nodes := M.nodes.change (lowerName ls) fun d => { d with cb := b } })
  | .wildcard ls b => (none, { M with nodes := M.nodes.change (lowerName ls) fun d => { d with wc := b } })
  | .clear => (none, ⟨[], M.nodes.length + M.lost⟩)

/-- the answers of a history -/
def answers (M : Table T) : List (TOp T) → List (Option T)
  | [] => []
  | op :: ops => (M.step op).1 :: (M.step op).2.answers ops

/-- the table after a history -/
def after (M : Table T) : List (TOp T) → Table T
  | [] => M
  | op :: ops => (M.step op).2.after ops

/-- a caught history answers as the table does, operations that panic left out; the table afterwards -/
def CaughtTo : Table T → List (TOp T) → List (Res (Option T)) → Table T → Prop
  | M, [], [], M' => M' = M
  | M, op :: ops, r :: rs, M' => (r = .panic ∧ CaughtTo M ops rs M') ∨ (r = .ok (M.step op).1 ∧ CaughtTo (M.step op).2 ops rs M')
  | _, _, _, _ => False

end Table
end R53
