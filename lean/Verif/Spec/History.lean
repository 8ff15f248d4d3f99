import Verif.Spec.Nodes
/-!
# What a history of insertions leaves, for C105
-/
namespace R53
variable {T : Type}

/-- the value an operation puts under the name `k` -/
def TOp.puts (k : List Label) : TOp T → Option (Option T)
  | .insert ls v => if lowerName ls = k then some v else none
  | _ => none

/-- the value put under the name `k` last -/
def lastPut (ops : List (TOp T)) (k : List Label) : Option (Option T) := (ops.filterMap (TOp.puts k)).getLast?

/-- nothing but insertions -/
def OnlyInserts (ops : List (TOp T)) : Prop := ∀ op ∈ ops, ∃ ls v, op = .insert ls v

/-- `k` is a name that was put in (then `a = b = k`), or the longest common end of two such names -/
def Settled (ops : List (TOp T)) (k : List Label) : Prop :=
  ∃ a b, lastPut ops a ≠ none ∧ lastPut ops b ≠ none ∧ k <:+ a ∧ k <:+ b ∧ ∀ j, j <:+ a → j <:+ b → j.length ≤ k.length

/-- what `find` says of a name: how well it matches, and the value -/
def found (m : Build) (s : Dom T) (ls : List Label) : Res (Dom.FindFlag × Option T) := do
  let r ← s.find m (Name.ofLabels ls)
  let v ← r.get_value s
  pure (r.flag, v)

end R53
