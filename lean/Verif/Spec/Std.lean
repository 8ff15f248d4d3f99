import Verif.Spec.Text
/-!
# The texts of addresses and of octets in base64

Independent of the parsers: dotted quads, the IPv6 texts of RFC 4291 §2.2 and RFC 5952, and base64 of RFC 4648 §4.
-/
namespace R53

/-- the four numbers of the address in decimal, without leading zeros, with dots between them -/
def dotted : List UInt8 → List UInt8
  | [a, b, c, d] => decimal a.toNat ++ ascii "." ++ decimal b.toNat ++ ascii "." ++ decimal c.toNat ++ ascii "." ++ decimal d.toNat
  | _ => []

/-- the value of a hexadecimal digit character, either case -/
def HexDigit (c : UInt8) (v : Nat) : Prop :=
  (48 ≤ c.toNat ∧ c.toNat ≤ 57 ∧ v = c.toNat - 48) ∨ (97 ≤ c.toNat ∧ c.toNat ≤ 102 ∧ v = c.toNat - 97 + 10) ∨ (65 ≤ c.toNat ∧ c.toNat ≤ 70 ∧ v = c.toNat - 65 + 10)

/-- the value of a decimal digit character -/
def DecDigit (c : UInt8) (v : Nat) : Prop := 48 ≤ c.toNat ∧ c.toNat ≤ 57 ∧ v = c.toNat - 48

/-- digits, most significant first, and the number they denote -/
inductive Numeral (D : UInt8 → Nat → Prop) (radix : Nat) : List UInt8 → Nat → Prop
  | one {c : UInt8} {v : Nat} : D c v → Numeral D radix [c] v
  | more {s : List UInt8} {n : Nat} {c : UInt8} {v : Nat} : Numeral D radix s n → D c v → Numeral D radix (s ++ [c]) (radix * n + v)

/-- one of the pieces of 16 bits: one to four hexadecimal digits -/
def Piece (s : List UInt8) (v : Nat) : Prop := Numeral HexDigit 16 s v ∧ s.length ≤ 4

/-- pieces with colons between them, possibly none -/
inductive Pieces : List UInt8 → List Nat → Prop
  | none : Pieces [] []
  | one {s : List UInt8} {v : Nat} : Piece s v → Pieces s [v]
  | more {s t : List UInt8} {v w : Nat} {vs : List Nat} : Piece s v → Pieces t (w :: vs) → Pieces (s ++ ascii ":" ++ t) (v :: w :: vs)

/-- pieces with colons between them, the last two possibly given as a dotted quad -/
inductive LastPieces : List UInt8 → List Nat → Prop
  | pieces {s : List UInt8} {vs : List Nat} : Pieces s vs → LastPieces s vs
  | quad {a b c d : UInt8} : LastPieces (dotted [a, b, c, d]) [256 * a.toNat + b.toNat, 256 * c.toNat + d.toNat]
  | mixed {s : List UInt8} {v : Nat} {vs : List Nat} {a b c d : UInt8} : Pieces s (v :: vs) →
      LastPieces (s ++ ascii ":" ++ dotted [a, b, c, d]) (v :: vs ++ [256 * a.toNat + b.toNat, 256 * c.toNat + d.toNat])

/-- the texts of an IPv6 address, RFC 4291 §2.2: all eight pieces, or `::` in the place of one or more zero pieces -/
inductive V6Text : List UInt8 → List Nat → Prop
  | full {s : List UInt8} {vs : List Nat} : LastPieces s vs → vs.length = 8 → V6Text s vs
  | short {s t : List UInt8} {vs ws : List Nat} {k : Nat} : Pieces s vs → LastPieces t ws → vs.length + k + ws.length = 8 → 1 ≤ k →
      V6Text (s ++ ascii "::" ++ t) (vs ++ List.replicate k 0 ++ ws)

/-- the octets of the pieces, most significant first -/
def pieceOctets (vs : List Nat) : List UInt8 := vs.flatMap fun v => [UInt8.ofNat (v / 256), UInt8.ofNat (v % 256)]

/-- RFC 4648 table 1 -/
def alphabet64 : List UInt8 := ascii "ABCDEFGHIJKLMNOPQRSTUVWXYZabcdefghijklmnopqrstuvwxyz0123456789+/"

/-- the four characters of 24 bits -/
def chars64 (n : Nat) : List UInt8 := [n / 262144 % 64, n / 4096 % 64, n / 64 % 64, n % 64].map fun i => alphabet64.getD i 0

/-- RFC 4648 §4: groups of three octets; a last group of one or two octets is filled with zero bits, and `=` stands for each octet it lacks -/
def base64Text : List UInt8 → List UInt8
  | [] => []
  | [a] => (chars64 (65536 * a.toNat)).take 2 ++ ascii "=="
  | [a, b] => (chars64 (65536 * a.toNat + 256 * b.toNat)).take 3 ++ ascii "="
  | a :: b :: c :: t => chars64 (65536 * a.toNat + 256 * b.toNat + c.toNat) ++ base64Text t

end R53
