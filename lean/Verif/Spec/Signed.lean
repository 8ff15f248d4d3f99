import Verif.Spec.Name
/-!
# The order of names with octets read as signed numbers

Not the canonical order of RFC 4034, which reads octets as unsigned numbers; the two agree on ASCII.
-/
namespace R53

/-- an octet as a signed number -/
def signed (c : UInt8) : Int := if c.toNat < 128 then (c.toNat : Int) else (c.toNat : Int) - 256

/-- the order of two octets by the sign of their difference, computed with eight bits: beyond −128 … 127 there is none with overflow checks,
and without them the difference wraps, so its sign is the other one -/
def diffOrder (checks : Bool) (x y : UInt8) : Option Ordering :=
  if -128 ≤ signed x - signed y ∧ signed x - signed y ≤ 127 then some (compare (signed x) (signed y))
  else if checks then none else some (compare (signed y) (signed x))

/-- labels by their lower-cased octets, absence first -/
def labelOrder (f : UInt8 → UInt8 → Option Ordering) : Label → Label → Option Ordering
  | [], [] => some .eq
  | [], _ :: _ => some .lt
  | _ :: _, [] => some .gt
  | a :: as, b :: bs => match f (lowerByte a) (lowerByte b) with
    | some .eq => labelOrder f as bs
    | r => r

/-- labels by their lower-cased octets as signed numbers, absence first: an order of all labels, and the canonical order on ASCII -/
def cmpSigned : Label → Label → Ordering
  | [], [] => .eq
  | [], _ :: _ => .lt
  | _ :: _, [] => .gt
  | a :: as, b :: bs => (compare (signed (lowerByte a)) (signed (lowerByte b))).then (cmpSigned as bs)

/-- two labels that can be compared with eight bits: where their lower-cased octets differ for the first time, the difference as signed numbers fits -/
def Near (a b : Label) : Prop :=
  ∀ p x y as bs, lowerLabel a = p ++ x :: as → lowerLabel b = p ++ y :: bs → -128 ≤ signed x - signed y ∧ signed x - signed y ≤ 127

/-- label lists, first label most significant -/
def listOrder (f : UInt8 → UInt8 → Option Ordering) : List Label → List Label → Option Ordering
  | [], [] => some .eq
  | [], _ :: _ => some .lt
  | _ :: _, [] => some .gt
  | a :: as, b :: bs => match labelOrder f a b with
    | some .eq => listOrder f as bs
    | r => r

/-- names, last label most significant -/
def nameOrder (f : UInt8 → UInt8 → Option Ordering) (a b : List Label) : Option Ordering := listOrder f a.reverse b.reverse

end R53
