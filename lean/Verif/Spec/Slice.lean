import Verif.Spec.Name
/-!
# Specification of comparing runs of labels, with or without regard to letter case
-/
namespace R53

/-- what an octet counts as -/
def foldByte (cs : Bool) (c : UInt8) : UInt8 := if cs then c else lowerByte c

/-- what a run of labels counts as -/
def foldLabels (cs : Bool) (ls : List Label) : List Label := ls.map fun l => l.map (foldByte cs)

/-- the same labels -/
def SameLabels (cs : Bool) (a b : List Label) : Prop := foldLabels cs a = foldLabels cs b
instance (cs : Bool) (a b : List Label) : Decidable (SameLabels cs a b) := by unfold SameLabels; infer_instance

/-- `b` is the end of `a` -/
def EndOf (cs : Bool) (b a : List Label) : Prop := foldLabels cs b <:+ foldLabels cs a
instance (cs : Bool) (b a : List Label) : Decidable (EndOf cs b a) := by unfold EndOf; infer_instance

/-- how many labels two runs, given from the right, have in common there -/
def commonFold (cs : Bool) : List Label → List Label → Nat
  | a :: as, b :: bs => if a.map (foldByte cs) = b.map (foldByte cs) then commonFold cs as bs + 1 else 0
  | _, _ => 0

/-- how many labels two runs have in common at the right -/
def commonRight (cs : Bool) (a b : List Label) : Nat := commonFold cs a.reverse b.reverse

/-- octet strings as unsigned numbers, a prefix first -/
def octetOrder (cs : Bool) : Label → Label → Ordering
  | [], [] => .eq
  | [], _ :: _ => .lt
  | _ :: _, [] => .gt
  | a :: as, b :: bs => (compare (foldByte cs a).toNat (foldByte cs b).toNat).then (octetOrder cs as bs)

/-- runs given from the right, label by label, a shorter one first -/
def labelsOrder (cs : Bool) : List Label → List Label → Ordering
  | [], [] => .eq
  | [], _ :: _ => .lt
  | _ :: _, [] => .gt
  | a :: as, b :: bs => (octetOrder cs a b).then (labelsOrder cs as bs)

/-- RFC 4034 section 6.1 with or without regard to case -/
def rightOrder (cs : Bool) (a b : List Label) : Ordering := labelsOrder cs a.reverse b.reverse

/-- at least one label: the labels of a valid name, with or without the root label -/
def IsRun (ls : List Label) : Prop := ls ≠ [] ∧ ∃ n, ValidName n ∧ (ls = n ∨ ls = n ++ [[]])

/-- labels joined by dots; the root label alone is a dot -/
def joinDots (ls : List Label) : List UInt8 := if ls = [[]] then [46] else List.intercalate [46] ls

/-- a text that ends with the root label: with a dot, or the text `@` -/
def EndsWithRoot (t : List UInt8) : Prop := t.getLast? = some 46 ∨ t = [64]
instance (t : List UInt8) : Decidable (EndsWithRoot t) := by unfold EndsWithRoot; infer_instance

end R53
