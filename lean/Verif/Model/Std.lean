import Verif.Model.Text
/-!
# The texts of IP addresses (`std::net`) and base64 (crate `base64` 0.13)

None of this is in the repository; `string_encode.rs:12-18,70-72` and `string_decode.rs:12-18,68-77` call it. The definitions follow the
sources of the Rust standard library (`core/src/net/ip_addr.rs`, `core/src/net/parser.rs`, since 1.57: no leading zeros in IPv4
numbers, only IPv4-mapped addresses print with a dotted quad) and of the crate `base64` (`encode.rs`, `decode.rs`, the standard alphabet with
padding). They are an instance of the parameter `Ext` of the text model.
-/
namespace R53.StdText

/-- a digit of `char::to_digit(radix)` for radix 10 or 16 (std::net, called from string_decode.rs:12-18) -/
def digit (radix : Nat) (c : UInt8) : Option Nat :=
  if 48 ≤ c ∧ c ≤ 57 then some (c.toNat - 48)
  else if radix = 16 then
    if 97 ≤ c ∧ c ≤ 102 then some (c.toNat - 87) else if 65 ≤ c ∧ c ≤ 70 then some (c.toNat - 55) else none
  else none

/-- the loop of `Parser::read_number`: the number of digits, their value and the rest; `None` for more than `max` digits (std::net, called from string_decode.rs:12-18) -/
def readDigits (radix max : Nat) : List UInt8 → Nat → Nat → Option (Nat × Nat × List UInt8)
  | [], count, acc => some (count, acc, [])
  | c :: s, count, acc =>
    match digit radix c with
    | none => some (count, acc, c :: s)
    | some d => if count + 1 > max then none else readDigits radix max s (count + 1) (acc * radix + d)

/-- `Parser::read_number(radix, Some(max), allow_zero_prefix)` for a type with greatest value `top` (std::net, called from string_decode.rs:12-18) -/
def readNumber (radix max top : Nat) (zeros : Bool) (s : List UInt8) : Option (Nat × List UInt8) :=
  match readDigits radix max s 0 0 with
  | none => none
  | some (count, v, rest) =>
    if count = 0 then none
    else if !zeros && s.head? == some 48 && decide (count > 1) then none
    else if v > top then none
    else some (v, rest)

/-- `Parser::read_separator(sep, index, inner)` (std::net, called from string_decode.rs:12-18) -/
def readSep {α : Type} (sep : UInt8) (index : Nat) (inner : List UInt8 → Option (α × List UInt8)) (s : List UInt8) :
    Option (α × List UInt8) :=
  if index = 0 then inner s
  else match s with
    | c :: t => if c = sep then inner t else none
    | [] => none

/-- the loop of `Parser::read_ipv4_addr`, `left` numbers from the one with the index `i` on (std::net, called from string_decode.rs:12-14, string_encode.rs:12-14) -/
def readV4 : Nat → Nat → List UInt8 → Option (List Nat × List UInt8)
  | 0, _, s => some ([], s)
  | left + 1, i, s =>
    match readSep 46 i (readNumber 10 3 255 false) s with
    | none => none
    | some (v, t) =>
      match readV4 left (i + 1) t with
      | none => none
      | some (vs, u) => some (v :: vs, u)

/-- `Ipv4Addr::from_str`: at most 15 octets, all of them read (std::net, called from string_decode.rs:12-14, string_encode.rs:12-14) -/
def parseV4 (s : List UInt8) : Option (List UInt8) :=
  if s.length > 15 then none
  else match readV4 4 0 s with
    | some (vs, []) => some (vs.map UInt8.ofNat)
    | _ => none

/-- `Ipv4Addr: Display`: `"{}.{}.{}.{}"` (std::net, called from string_decode.rs:12-14, string_encode.rs:12-14) -/
def showV4 (o : List UInt8) : List UInt8 :=
  match o with
  | [] => []
  | a :: t => decimal a.toNat ++ t.flatMap fun b => 46 :: decimal b.toNat

/-- `{:x}` (std::net, called from string_decode.rs:16-18, string_encode.rs:16-18) -/
def hexNum (n : Nat) : List UInt8 :=
  if n < 16 then [if n < 10 then UInt8.ofNat (48 + n) else UInt8.ofNat (87 + n)]
  else hexNum (n / 16) ++ [if n % 16 < 10 then UInt8.ofNat (48 + n % 16) else UInt8.ofNat (87 + n % 16)]

/-- `Ipv6Addr::segments` (std::net, called from string_decode.rs:16-18, string_encode.rs:16-18) -/
def segments : List UInt8 → List Nat
  | a :: b :: t => (256 * a.toNat + b.toNat) :: segments t
  | _ => []

/-- `Ipv6Addr::from([u16; 8])`, the octets (std::net, called from string_decode.rs:16-18, string_encode.rs:16-18) -/
def octets : List Nat → List UInt8
  | [] => []
  | v :: t => UInt8.ofNat (v / 256) :: UInt8.ofNat (v % 256) :: octets t

/-- `read_groups` inside `Parser::read_ipv6_addr`: `left` places from the index `i` on; the groups read, whether they end with an embedded
IPv4 address, and the rest. The source fills an array with zeros behind the groups. (std::net, called from string_decode.rs:16-18, string_encode.rs:16-18) -/
def readGroups : Nat → Nat → List UInt8 → List Nat × Bool × List UInt8
  | 0, _, s => ([], false, s)
  | left + 1, i, s =>
    let v4 := if left = 0 then none else readSep 58 i (readV4 4 0) s
    match v4 with
    | some (vs, t) => (segments (vs.map UInt8.ofNat), true, t)
    | none =>
      match readSep 58 i (readNumber 16 4 65535 true) s with
      | none => ([], false, s)
      | some (v, t) =>
        let r := readGroups left (i + 1) t
        (v :: r.1, r.2)

/-- the part of `Parser::read_ipv6_addr` behind `::` (std::net, called from string_decode.rs:16-18, string_encode.rs:16-18) -/
def readTail (head : List Nat) (s : List UInt8) : Option (List Nat × List UInt8) :=
  match s with
  | 58 :: 58 :: t =>
    let r := readGroups (8 - (head.length + 1)) 0 t
    some (head ++ List.replicate (8 - head.length - r.1.length) 0 ++ r.1, r.2.2)
  | _ => none

/-- `Parser::read_ipv6_addr` (std::net, called from string_decode.rs:16-18, string_encode.rs:16-18) -/
def readV6 (s : List UInt8) : Option (List Nat × List UInt8) :=
  let r := readGroups 8 0 s
  if r.1.length = 8 then some (r.1, r.2.2)
  else if r.2.1 then none
  else readTail r.1 r.2.2

/-- `Ipv6Addr::from_str`: everything is read (std::net, called from string_decode.rs:16-18, string_encode.rs:16-18) -/
def parseV6 (s : List UInt8) : Option (List UInt8) :=
  match readV6 s with
  | some (vs, []) => some (octets vs)
  | _ => none

/-- the loop that looks for the longest run of zero segments in `Ipv6Addr: Display`: `current` and `longest` as start and length (std::net, called from string_decode.rs:16-18, string_encode.rs:16-18) -/
def zeroSpan : List Nat → Nat → Nat × Nat → Nat × Nat → Nat × Nat
  | [], _, _, longest => longest
  | g :: gs, i, current, longest =>
    if g = 0 then
      let current := (if current.2 = 0 then i else current.1, current.2 + 1)
      zeroSpan gs (i + 1) current (if current.2 > longest.2 then current else longest)
    else zeroSpan gs (i + 1) (0, 0) longest

/-- `fmt_subslice` (std::net, called from string_decode.rs:16-18, string_encode.rs:16-18) -/
def showGroups : List Nat → List UInt8
  | [] => []
  | g :: gs => hexNum g ++ gs.flatMap fun h => 58 :: hexNum h

/-- `Ipv6Addr: Display` (std::net, called from string_decode.rs:16-18, string_encode.rs:16-18) -/
def showV6 (o : List UInt8) : List UInt8 :=
  let gs := segments o
  if o.take 12 = [0, 0, 0, 0, 0, 0, 0, 0, 0, 0, 255, 255] then
    [58, 58, 102, 102, 102, 102, 58] ++ showV4 (o.drop 12)
  else
    let z := zeroSpan gs 0 (0, 0) (0, 0)
    if z.2 > 1 then showGroups (gs.take z.1) ++ [58, 58] ++ showGroups (gs.drop (z.1 + z.2)) else showGroups gs

/-- the alphabet of base64, RFC 4648 table 1 (crate base64, called from string_decode.rs:74, string_encode.rs:74) -/
def symbol (n : Nat) : UInt8 :=
  if n < 26 then UInt8.ofNat (65 + n)
  else if n < 52 then UInt8.ofNat (71 + n)
  else if n < 62 then UInt8.ofNat (n - 4)
  else if n = 62 then 43 else 47

/-- the decode table (crate base64, called from string_decode.rs:74, string_encode.rs:74) -/
def value (c : UInt8) : Option Nat :=
  if 65 ≤ c ∧ c ≤ 90 then some (c.toNat - 65)
  else if 97 ≤ c ∧ c ≤ 122 then some (c.toNat - 71)
  else if 48 ≤ c ∧ c ≤ 57 then some (c.toNat + 4)
  else if c = 43 then some 62
  else if c = 47 then some 63
  else none

/-- `base64::encode` (crate base64, called from string_decode.rs:74, string_encode.rs:74) -/
def encode64 : List UInt8 → List UInt8
  | [] => []
  | [a] => [symbol (a.toNat / 4), symbol (a.toNat % 4 * 16), 61, 61]
  | [a, b] => [symbol (a.toNat / 4), symbol (a.toNat % 4 * 16 + b.toNat / 16), symbol (b.toNat % 16 * 4), 61]
  | a :: b :: c :: t =>
    [symbol (a.toNat / 4), symbol (a.toNat % 4 * 16 + b.toNat / 16), symbol (b.toNat % 16 * 4 + c.toNat / 64), symbol (c.toNat % 64)] ++
      encode64 t

/-- the last one to four octets of the text in `base64::decode`: two to four symbols, then up to as many `=` as fill the four places; bits of
the last symbol that do not belong to an octet are zero (crate base64, called from string_decode.rs:74, string_encode.rs:74) -/
def decodeLast (s : List UInt8) : Option (List UInt8) :=
  match (s.takeWhile (· != 61)).map value, s.dropWhile (· != 61) with
  | [some x, some y], p =>
    if (p = [] ∨ p = [61] ∨ p = [61, 61]) ∧ y % 16 = 0 then some [UInt8.ofNat (4 * x + y / 16)] else none
  | [some x, some y, some z], p =>
    if (p = [] ∨ p = [61]) ∧ z % 4 = 0 then some [UInt8.ofNat (4 * x + y / 16), UInt8.ofNat (y % 16 * 16 + z / 4)] else none
  | [some x, some y, some z, some w], [] =>
    some [UInt8.ofNat (4 * x + y / 16), UInt8.ofNat (y % 16 * 16 + z / 4), UInt8.ofNat (z % 4 * 64 + w)]
  | _, _ => none

/-- `base64::decode`: groups of four symbols, then the last group (crate base64, called from string_decode.rs:74, string_encode.rs:74) -/
def decode64 : List UInt8 → Option (List UInt8)
  | [] => some []
  | a :: b :: c :: d :: e :: t =>
    match value a, value b, value c, value d, decode64 (e :: t) with
    | some x, some y, some z, some w, some r =>
      some (UInt8.ofNat (4 * x + y / 16) :: UInt8.ofNat (y % 16 * 16 + z / 4) :: UInt8.ofNat (z % 4 * 64 + w) :: r)
    | _, _, _, _, _ => none
  | s => decodeLast s

end R53.StdText

namespace R53
/-- the texts of the standard library and of the crate `base64` (string_decode.rs:12-18, 74; string_encode.rs:12-18, 74) -/
def stdExt : Ext := ⟨StdText.showV4, StdText.parseV4, StdText.showV6, StdText.parseV6, StdText.encode64, StdText.decode64⟩
end R53
