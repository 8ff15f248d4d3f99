import Verif.Basic
/-! # Model of `util/hex.rs` (strings are their octets) -/
namespace R53.Hex

/-- the loop body's `match byte` (hex.rs:8-17): the digit value or-ed into `buf`; `none` = not a digit.
The ranges are the source's byte ranges `A..=F`, `a..=f`, `0..=9`. -/
def digit (byte : UInt8) : Option UInt8 :=
  if 65 ≤ byte ∧ byte ≤ 70 then some (byte - 65 + 10)
  else if 97 ≤ byte ∧ byte ≤ 102 then some (byte - 97 + 10)
  else if 48 ≤ byte ∧ byte ≤ 57 then some (byte - 48)
  else none

/-- hex.rs:13: `b' ' | b'\r' | b'\n' | b'\t'` -/
def isSpace (byte : UInt8) : Bool := byte == 32 || byte == 13 || byte == 10 || byte == 9

/-- loop of `from_hex` (hex.rs:6-24) with its variables `b`, `modulus`, `buf`. -/
def fromLoop : List UInt8 → List UInt8 → Nat → UInt8 → Option (List UInt8)
  | [], b, modulus, _ => if modulus = 0 then some b else none
  | byte :: rest, b, modulus, buf0 =>
    let buf := buf0 <<< 4
    match digit byte with
    | some v =>
      let buf := buf ||| v
      let modulus := modulus + 1
      if modulus = 2 then fromLoop rest (b ++ [buf]) 0 buf else fromLoop rest b modulus buf
    | none =>
      if isSpace byte then fromLoop rest b modulus (buf >>> 4)
      else none

/-- `from_hex` hex.rs:1-29 -/
def from_hex (s : List UInt8) : Option (List UInt8) := fromLoop s [] 0 0

/-- `CHARS` hex.rs:32 -/
def CHARS : List UInt8 := [48, 49, 50, 51, 52, 53, 54, 55, 56, 57, 97, 98, 99, 100, 101, 102]

/-- `to_hex` hex.rs:32-40; `CHARS[i]` with `i < 16` never panics, see `to_hex_total`. -/
def to_hex : List UInt8 → Res (List UInt8)
  | [] => .ok []
  | byte :: rest => do
    let a ← idx CHARS (byte >>> 4).toNat
    let c ← idx CHARS (byte &&& 0xf).toNat
    let r ← to_hex rest
    pure (a :: c :: r)

end R53.Hex
