import Verif.Spec.Slice
/-!
# The text of names in master files

RFC 1035 section 5.1: labels separated by dots, an octet that is special or not visible behind a backslash, as itself or as its value in three
decimal digits. `present` writes such text and `rfcLabels` reads it, in the way of the RFC (the reader of this library is another one, C06).
-/
namespace R53

/-- the text of an octet of a label: `"().;\@$` behind a backslash, other visible characters as they are, all others as three digits -/
def presentOctet (c : UInt8) : List UInt8 :=
  if c ∈ [0x22, 0x28, 0x29, 0x2E, 0x3B, 0x5C, 0x40, 0x24] then [92, c]
  else if 0x21 ≤ c ∧ c ≤ 0x7e then [c]
  else [92, 48 + c / 100, 48 + c / 10 % 10, 48 + c % 10]

/-- the text of a label -/
def present (l : Label) : List UInt8 := l.flatMap presentOctet

/-- where a reader is: in front of a character, behind a backslash, or behind a backslash and one or two digits -/
inductive Esc where
  | no | slash | one (a : UInt8) | two (a b : UInt8)

/-- the octet of three digits, if it is one -/
def ddd (a b c : UInt8) : Option UInt8 :=
  let v := (a.toNat - 48) * 100 + (b.toNat - 48) * 10 + (c.toNat - 48)
  if v < 256 then some (UInt8.ofNat v) else none

/-- is it a digit -/
def digit? (c : UInt8) : Bool := decide (48 ≤ c.toNat ∧ c.toNat ≤ 57)

/-- the labels of a text whose current label has begun with `l`; a text that ends with a dot has the root label last -/
def rfcRead : Esc → Label → List UInt8 → Option (List Label)
  | .no, l, [] => some [l]
  | _, _, [] => none
  | .no, l, c :: t =>
    if c = 92 then rfcRead .slash l t
    else if c = 46 then (if l = [] then none else (rfcRead .no [] t).map (l :: ·))
    else rfcRead .no (l ++ [c]) t
  | .slash, l, c :: t => if digit? c then rfcRead (.one c) l t else rfcRead .no (l ++ [c]) t
  | .one a, l, c :: t => if digit? c then rfcRead (.two a c) l t else none
  | .two a b, l, c :: t => if digit? c then (ddd a b c).bind fun o => rfcRead .no (l ++ [o]) t else none

/-- the labels of a text; a lone dot is the root -/
def rfcLabels (t : List UInt8) : Option (List Label) :=
  if t = [] then none else if t = [46] then some [[]] else rfcRead .no [] t

end R53
