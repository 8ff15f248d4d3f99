import Verif.Spec.Name
/-!
# Specification of the text form of names (RFC 1035 §5.1), without escapes and with the escapes of this library
-/
namespace R53

/-- split at the dots (46); the result is never empty -/
def splitDots : List UInt8 → List Label
  | [] => [[]]
  | c :: t =>
    if c = 46 then [] :: splitDots t
    else match splitDots t with
      | x :: xs => (c :: x) :: xs
      | [] => [[c]]

/-- one final dot does not start another label -/
def dropFinal (ls : List Label) : List Label := if ls.getLast? = some [] then ls.dropLast else ls

/-- what a text without backslash denotes: `.` and `@` the root, otherwise the labels between the dots,
if they are within the limits -/
def denotes (t : List UInt8) : Option (List Label) :=
  if t = [46] ∨ t = [64] then some []
  else if dropFinal (splitDots t) ≠ [] ∧ ValidName (dropFinal (splitDots t)) then some (dropFinal (splitDots t))
  else none

/-- octets that are printed as themselves: visible ASCII except `" ( ) . ; \ @ $` -/
def Plain (c : UInt8) : Prop := 0x21 ≤ c ∧ c ≤ 0x7e ∧ c ∉ [0x22, 0x28, 0x29, 0x2E, 0x3B, 0x5C, 0x40, 0x24]

instance (c : UInt8) : Decidable (Plain c) := by unfold Plain; infer_instance

/-- where a reader of a name is: at the start of a label, inside it, or behind a backslash -/
inductive Place
  | start | inside | escaped

/-- one octet more in front of the first label -/
def pushOctet (c : UInt8) : Option (List Label) → Option (List Label)
  | some (l :: ls) => some ((c :: l) :: ls)
  | _ => none

/-- the value of three digits, at most 255 -/
def threeDigits (a b c : UInt8) : Bool :=
  48 ≤ a && a ≤ 57 && 48 ≤ b && b ≤ 57 && 48 ≤ c && c ≤ 57 && 100 * (a.toNat - 48) + 10 * (b.toNat - 48) + (c.toNat - 48) ≤ 255

/-- The labels of a text with backslashes, as this library reads them, which is not what RFC 1035 §5.1 says: a backslash at the start of a
label is an octet and an escape; `\DDD` is its last digit; `\.` is a dot and the end of the label; `\\` is a backslash and still an escape;
any other escaped octet counts twice. The list is not empty; its last label is empty if the text ends a label. -/
def readLabels : Place → List UInt8 → Option (List Label)
  | .escaped, [] => none
  | _, [] => some [[]]
  | .start, c :: t =>
    if c = 46 then (readLabels .start t).map ([] :: ·)
    else if c = 92 then pushOctet 92 (readLabels .escaped t)
    else pushOctet c (readLabels .inside t)
  | .inside, c :: t =>
    if c = 46 then (readLabels .start t).map ([] :: ·)
    else if c = 92 then readLabels .escaped t
    else pushOctet c (readLabels .inside t)
  | .escaped, c :: t =>
    if c = 46 then pushOctet 46 ((readLabels .start t).map ([] :: ·))
    else if c = 92 then pushOctet 92 (readLabels .escaped t)
    else if 48 ≤ c ∧ c ≤ 57 then
      match t with
      | d :: e :: u => if threeDigits c d e then pushOctet e (readLabels .inside u) else none
      | _ => none
    else pushOctet c (pushOctet c (readLabels .inside t))

/-- the limits on the labels of a name; a name whose text ends in `\.` may have 256 octets -/
def WithinLimits (w : List UInt8) (ls : List Label) : Prop :=
  ls ≠ [] ∧ (∀ l ∈ ls, 1 ≤ l.length ∧ l.length ≤ 63) ∧ (nameWire ls).length ≤ (if [92, 46] <:+ w then 256 else 255)
instance (w : List UInt8) (ls : List Label) : Decidable (WithinLimits w ls) := by unfold WithinLimits; infer_instance

/-- the name a text denotes, with the escapes of this library: `.` and `@` the root, otherwise the labels with dots between them and maybe behind
the last -/
def readName (w : List UInt8) : Option (List Label) :=
  if w = [46] ∨ w = [64] then some []
  else match readLabels .start w with
    | some ls => if WithinLimits w (dropFinal ls) then some (dropFinal ls) else none
    | none => none

end R53
