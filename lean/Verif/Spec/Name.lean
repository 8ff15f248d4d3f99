/-!
# Specification of domain names

A name is its list of non-root labels, left to right; the wire form of RFC 1035 §3.1 is the
concatenation of length-prefixed labels ended by the empty (root) label.
-/
namespace R53

/-- a label: its octets -/
abbrev Label := List UInt8

/-- length octet followed by the octets -/
def labelWire (l : Label) : List UInt8 := UInt8.ofNat l.length :: l

/-- length-prefixed labels in sequence (no implicit root) -/
def wire (ls : List Label) : List UInt8 := ls.flatMap labelWire

/-- wire form of a whole name: its labels, then the root label -/
def nameWire (ls : List Label) : List UInt8 := wire ls ++ [0]

/-- start offset of each label of a sequence that begins at offset `b` -/
def starts (b : Nat) : List Label → List Nat
  | [] => []
  | l :: ls => b :: starts (b + l.length + 1) ls

/-- RFC 1035 §2.3.4: labels are 1 to 63 octets -/
def ValidLabel (l : Label) : Prop := 1 ≤ l.length ∧ l.length ≤ 63

/-- RFC 1035 §2.3.4: names are at most 255 octets on the wire -/
def ValidName (ls : List Label) : Prop := (∀ l ∈ ls, ValidLabel l) ∧ (nameWire ls).length ≤ 255

instance (l : Label) : Decidable (ValidLabel l) := by unfold ValidLabel; infer_instance
instance (ls : List Label) : Decidable (ValidName ls) := by unfold ValidName; infer_instance

/-- ASCII lower case of an octet (RFC 4343) -/
def lowerByte (c : UInt8) : UInt8 := if 65 ≤ c ∧ c ≤ 90 then c + 32 else c

def lowerLabel (l : Label) : Label := l.map lowerByte
def lowerName (ls : List Label) : List Label := ls.map lowerLabel

/-- names are compared without regard to ASCII case (RFC 1035 §2.3.3) -/
def SameName (a b : List Label) : Prop := lowerName a = lowerName b

instance (a b : List Label) : Decidable (SameName a b) := by unfold SameName; infer_instance

/-- `b` is an ancestor-or-self of `a`: its labels are the last labels of `a`, up to case -/
def IsSubdomain (a b : List Label) : Prop := lowerName b <:+ lowerName a

instance (a b : List Label) : Decidable (IsSubdomain a b) := by unfold IsSubdomain; infer_instance

/-- RFC 4034 §6.1, one label: lower-cased octets as unsigned numbers, left-justified, absence first -/
def cmpLabel : Label → Label → Ordering
  | [], [] => .eq
  | [], _ :: _ => .lt
  | _ :: _, [] => .gt
  | a :: as, b :: bs => (compare (lowerByte a).toNat (lowerByte b).toNat).then (cmpLabel as bs)

/-- compare label lists given most significant (rightmost) label first -/
def cmpLabelsMSF : List Label → List Label → Ordering
  | [], [] => .eq
  | [], _ :: _ => .lt
  | _ :: _, [] => .gt
  | a :: as, b :: bs => (cmpLabel a b).then (cmpLabelsMSF as bs)

/-- RFC 4034 §6.1 canonical name order -/
def canonicalCmp (a b : List Label) : Ordering := cmpLabelsMSF a.reverse b.reverse

/-- number of labels two lists (most significant first) share, up to case -/
def commonMSF : List Label → List Label → Nat
  | a :: as, b :: bs => if lowerLabel a = lowerLabel b then commonMSF as bs + 1 else 0
  | _, _ => 0

/-- number of rightmost labels two names share, up to case, not counting the root -/
def commonLabels (a b : List Label) : Nat := commonMSF a.reverse b.reverse

/-- RFC 1035 §4.1.4 message compression, as a relation. `Decodes msg limit pos ls e`: at `pos` the
message spells the labels `ls`, the encoding at this place ending before `e`; every pointer points
below `limit`, and each further pointer below the previous one. -/
inductive Decodes (msg : List UInt8) : (limit pos : Nat) → List Label → (e : Nat) → Prop
  | root {limit pos} : msg[pos]? = some 0 → Decodes msg limit pos [] (pos + 1)
  | label {limit pos e l ls} (len : UInt8) : msg[pos]? = some len → 1 ≤ len.toNat → len.toNat ≤ 63 →
      l.length = len.toNat → (msg.drop (pos + 1)).take len.toNat = l →
      Decodes msg limit (pos + 1 + len.toNat) ls e → Decodes msg limit pos (l :: ls) e
  | pointer {limit pos ls e'} (hi lo : UInt8) : msg[pos]? = some hi → 192 ≤ hi.toNat →
      msg[pos + 1]? = some lo → (hi.toNat - 192) * 256 + lo.toNat < limit →
      Decodes msg ((hi.toNat - 192) * 256 + lo.toNat) ((hi.toNat - 192) * 256 + lo.toNat) ls e' →
      Decodes msg limit pos ls (pos + 2)

end R53
