import Verif.Spec.Tree
/-!
# Values handed to a domain tree and handed back

For trees of any legal names: labels of any octets in a release build, ASCII labels in a debug build (where other labels make the comparison
panic, `c68_nonascii_violated`).
-/
namespace R53
namespace TOp
variable {T : Type}

/-- names are legal, and in a debug build also ASCII -/
def Legal (m : Build) (op : TOp T) : Prop := ∀ ls ∈ op.names, ValidName ls ∧ (m = .release ∨ ∀ l ∈ ls, ∀ c ∈ l, c.toNat < 128)

/-- the value the caller gives away -/
def given : TOp T → List T
  | insert _ (some v) => [v]
  | _ => []

/-- the value the caller gets back; `get` only looks -/
def taken : TOp T → Option T → List T
  | insert _ _, some v | removeNode _, some v | remove _, some v => [v]
  | _, _ => []

/-- the values the caller gets back in a history with the answers `outs` -/
def allTaken : List (TOp T) → List (Option T) → List T
  | op :: ops, o :: os => op.taken o ++ allTaken ops os
  | _, _ => []

/-- an answer about the name `ls` answers the operation: the same name, or for `remove` the name or one above it -/
def Asks (ls : List Label) : TOp T → Prop
  | insert ks _ | removeNode ks | get ks => SameName ls ks
  | remove ks => IsSubdomain ks ls
  | _ => False

end TOp

/-- the values stored in a tree -/
def Tr.values {T : Type} (t : Tr T) : List T := (t.nodes []).filterMap Entry.value

/-- every level is a red-black tree with a black root -/
def Tr.Balanced {T : Type} (t : Tr T) : Prop := ∀ x ∈ t.levels, (∃ n, x.RB n) ∧ x.isRed = false

/-- what a search may answer: a node with the name, a node above the name, or nothing -/
def Dom.Sound {T : Type} (t : Tr T) (ls : List Label) (r : FindResult) : Prop :=
  match r.flag with
  | .ExactMatch => ∃ e ∈ t.nodes [], e.addr = r.node ∧ SameName e.name (ls ++ [[]])
  | .PartialMatch => ∃ e ∈ t.nodes [], e.addr = r.node ∧ IsSubdomain (ls ++ [[]]) e.name
  | .NotFound => r.node = 0

end R53
