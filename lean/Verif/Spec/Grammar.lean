import Verif.Spec.Std
import Verif.Spec.Codes
import Verif.Spec.Hex
import Verif.Spec.NameText
/-!
# The grammar of record lines

`SetText` says what a line denotes, from the outside in: words separated by blanks, owner, TTL, class, type, and the fields of the
type. It does not use the parsers.
-/
namespace R53

/-- behind any blanks `s` starts with the word `w`; `rest`, at the end of the text or at a blank, follows -/
def FirstWord (s w rest : List UInt8) : Prop :=
  ∃ blanks, s = blanks ++ w ++ rest ∧ (∀ c ∈ blanks, Blank c) ∧ w ≠ [] ∧ (∀ c ∈ w, ¬ Blank c) ∧ ∀ c, rest.head? = some c → Blank c

/-- a decimal number, with or without a plus sign, leading zeros allowed -/
def NumberText (max : Nat) (w : List UInt8) (n : Nat) : Prop :=
  n ≤ max ∧ (Numeral DecDigit 10 w n ∨ ∃ t, w = 43 :: t ∧ Numeral DecDigit 10 t n)

/-- a year: also with a minus sign -/
def YearText (w : List UInt8) (y : Int) : Prop :=
  (∃ n : Nat, NumberText 9999 w n ∧ y = n) ∨ ∃ (t : List UInt8) (n : Nat), w = 45 :: t ∧ Numeral DecDigit 10 t n ∧ y = -(n : Int)

/-- Gregorian leap years -/
def LeapYear (y : Int) : Prop := 4 ∣ y ∧ (¬ (100 ∣ y) ∨ 400 ∣ y)
instance (y : Int) : Decidable (LeapYear y) := by unfold LeapYear; infer_instance

/-- the length of a month and the number of days before it, in a year that is not a leap year -/
def monthTable : List (Nat × Nat) :=
  [(31, 0), (28, 31), (31, 59), (30, 90), (31, 120), (30, 151), (31, 181), (31, 212), (30, 243), (31, 273), (30, 304), (31, 334)]

/-- `(y, mo, d)` is a date of the Gregorian calendar and `day` its day of the year from 0 -/
def DateIs (y : Int) (mo d day : Nat) : Prop :=
  ∃ len before, 1 ≤ mo ∧ monthTable[mo - 1]? = some (len, before) ∧ 1 ≤ d ∧ d ≤ len + (if LeapYear y ∧ mo = 2 then 1 else 0) ∧
    day = before + (if LeapYear y ∧ 2 < mo then 1 else 0) + (d - 1)

/-- seconds since 1970-01-01 00:00:00 UTC, the formula of POSIX (4.16 Seconds Since the Epoch); the year is not counted from 1900 here -/
def epochSeconds (y : Int) (day h mi s : Nat) : Int :=
  s + mi * 60 + h * 3600 + day * 86400 + (y - 1970) * 31536000 + (y - 1969) / 4 * 86400 - (y - 1901) / 100 * 86400 + (y - 1601) / 400 * 86400

/-- `YYYYMMDDHHmmSS`: a time of day of an existing date, as seconds modulo 2^32. Every part is a number with its sign, if it has one, inside
the two or four places. -/
def StampText (w : List UInt8) (v : UInt32) : Prop :=
  ∃ wy wm wd wh wi ws : List UInt8, w = wy ++ wm ++ wd ++ wh ++ wi ++ ws ∧
    wy.length = 4 ∧ wm.length = 2 ∧ wd.length = 2 ∧ wh.length = 2 ∧ wi.length = 2 ∧ ws.length = 2 ∧
    ∃ y mo d h mi s day, YearText wy y ∧ NumberText 99 wm mo ∧ NumberText 99 wd d ∧ NumberText 99 wh h ∧ NumberText 99 wi mi ∧ NumberText 99 ws s ∧
      DateIs y mo d day ∧ h ≤ 23 ∧ mi ≤ 59 ∧ s ≤ 59 ∧ (v.toNat : Int) = epochSeconds y day h mi s % 4294967296

/-- the octet at `k` continues a character of UTF-8: the text cannot be cut there -/
def Inside (w : List UInt8) (k : Nat) : Prop := ∃ c, w[k]? = some c ∧ 0x80 ≤ c.toNat ∧ c.toNat ≤ 0xBF

/-- fourteen octets with a character across the end of the year, or, the parts before it being in order, across the end of the month, the day, the
hour or the minute -/
def BrokenStamp (w : List UInt8) : Prop :=
  w.length = 14 ∧ (Inside w 4 ∨ ∃ y, YearText (w.take 4) y ∧
    (Inside w 6 ∨ ∃ mo, NumberText 99 ((w.drop 4).take 2) mo ∧
      (Inside w 8 ∨ ∃ d day, NumberText 99 ((w.drop 6).take 2) d ∧ DateIs y mo d day ∧
        (Inside w 10 ∨ ∃ h, NumberText 99 ((w.drop 8).take 2) h ∧ Inside w 12))))

/-- the white space characters of Unicode in UTF-8 -/
def spaceChars : List (List UInt8) :=
  [[9], [10], [11], [12], [13], [32], [0xC2, 0x85], [0xC2, 0xA0], [0xE1, 0x9A, 0x80],
   [0xE2, 0x80, 0x80], [0xE2, 0x80, 0x81], [0xE2, 0x80, 0x82], [0xE2, 0x80, 0x83], [0xE2, 0x80, 0x84], [0xE2, 0x80, 0x85], [0xE2, 0x80, 0x86],
   [0xE2, 0x80, 0x87], [0xE2, 0x80, 0x88], [0xE2, 0x80, 0x89], [0xE2, 0x80, 0x8A], [0xE2, 0x80, 0xA8], [0xE2, 0x80, 0xA9], [0xE2, 0x80, 0xAF],
   [0xE2, 0x81, 0x9F], [0xE3, 0x80, 0x80]]

/-- `s` is `t` with white space characters anywhere in it -/
inductive Spaced : List UInt8 → List UInt8 → Prop
  | nil : Spaced [] []
  | space {u s t : List UInt8} : u ∈ spaceChars → Spaced s t → Spaced (u ++ s) t
  | char {c : UInt8} {s t : List UInt8} : Spaced s t → Spaced (c :: s) (c :: t)

/-- `t` is `s` without the white space characters at both ends -/
def Trimmed (s t : List UInt8) : Prop :=
  ∃ us ws : List (List UInt8), s = us.flatten ++ t ++ ws.flatten ∧ (∀ u ∈ us, u ∈ spaceChars) ∧ (∀ w ∈ ws, w ∈ spaceChars) ∧
    (∀ c ∈ spaceChars, ¬ c <+: t) ∧ ∀ c ∈ spaceChars, ¬ c <:+ t

/-- `w` spells `m`: letter by letter, in either case; `ſ` also stands for S and `ı` for I, as Unicode has it -/
inductive Letters : List UInt8 → List UInt8 → Prop
  | nil : Letters [] []
  | letter {c u : UInt8} {w m : List UInt8} : c.toNat < 0x80 → lowerByte c = lowerByte u → Letters w m → Letters (c :: w) (u :: m)
  | longS {w m : List UInt8} : Letters w m → Letters (0xC5 :: 0xBF :: w) (83 :: m)
  | dotlessI {w m : List UInt8} : Letters w m → Letters (0xC4 :: 0xB1 :: w) (73 :: m)

/-- the mnemonic of an RR type -/
def TypeText (w : List UInt8) (t : RRType) : Prop := ∃ p ∈ ianaTypes, Letters w (ascii p.2) ∧ t = RRType.new (UInt16.ofNat p.1)

/-- the mnemonic of a class -/
def ClassText (w : List UInt8) (c : RRClass) : Prop := ∃ p ∈ ianaClasses, Letters w (ascii p.2) ∧ c = RRClass.new (UInt16.ofNat p.1)

/-- the mnemonic of a response code, or `RESERVED`, which stands for all codes without one -/
def RcodeText (w : List UInt8) (c : Rcode) : Prop := ∃ p ∈ ianaRcodes ++ [(11, "RESERVED")], Letters w (ascii p.2) ∧ c = Rcode.new (UInt8.ofNat p.1)

/-- the text of a name -/
def NameText (w : List UInt8) (n : Name) : Prop := ∃ ls, readName w = some ls ∧ n = Name.ofLabels ls

/-- `s` starts with the text of the field `v`, and `rest` follows -/
def FieldText : Disp → List UInt8 → FieldVal → List UInt8 → Prop
  | .name, s, .name n, rest => ∃ w, FirstWord s w rest ∧ NameText w n
  | .ipv4, s, .ip o, rest => FirstWord s (dotted o) rest ∧ o.length = 4
  | .ipv6, s, .ip o, rest => ∃ w vs, FirstWord s w rest ∧ V6Text w vs ∧ o = pieceOctets vs
  | .u8, s, .u8 v, rest => ∃ w, FirstWord s w rest ∧ NumberText 255 w v.toNat
  | .u16, s, .u16 v, rest => ∃ w, FirstWord s w rest ∧ NumberText 65535 w v.toNat
  | .u32, s, .u32 v, rest => ∃ w, FirstWord s w rest ∧ NumberText 4294967295 w v.toNat
  | .rrtype, s, .rrtype t, rest => ∃ w, FirstWord s w rest ∧ TypeText w t
  | .text, s, .text ds, rest => CharStrings s ds ∧ rest = []
  | .timestamp, s, .u32 v, rest => ∃ w, FirstWord s w rest ∧ StampText w v
  | .string, s, .bytes d, rest => CharStringThen s d rest
  | .binary, s, .bytes d, rest => ∃ w, FirstWord s w rest ∧ HexSpec.Spells w d
  | .base64, s, .bytes d, rest => s ≠ [] ∧ rest = [] ∧ ∃ t k, Spaced s t ∧ t ++ List.replicate k 61 = base64Text d
  | _, _, _, _ => False

/-- the notation of the data of each type, as the library has it: RFC 1035 §3.3 and §5.1, 1183 (RP), 2782 (SRV), 3403 (NAPTR), 3596 (AAAA), 4034
(DS, DNSKEY, RRSIG), 4398 (CERT), 6672 (DNAME), 7553 (URI), 8659 (CAA, but the tag stands in quotes); NSEC, NSEC3, NSEC3PARAM and OPT have hexadecimal
octets in the place of bit maps, hashes, salts and options -/
def dataForm : RRType → Option (List Disp)
  | .A => some [.ipv4]
  | .AAAA => some [.ipv6]
  | .NS => some [.name]
  | .CNAME => some [.name]
  | .DNAME => some [.name]
  | .PTR => some [.name]
  | .MX => some [.u16, .name]
  | .SOA => some [.name, .name, .u32, .u32, .u32, .u32, .u32]
  | .TXT => some [.text]
  | .RP => some [.name, .name]
  | .SRV => some [.u16, .u16, .u16, .name]
  | .NAPTR => some [.u16, .u16, .string, .string, .string, .name]
  | .CERT => some [.u16, .u16, .u8, .base64]
  | .DS => some [.u16, .u8, .u8, .binary]
  | .DNSKEY => some [.u16, .u8, .u8, .base64]
  | .RRSIG => some [.rrtype, .u8, .u8, .u32, .timestamp, .timestamp, .u16, .name, .base64]
  | .NSEC => some [.name, .binary]
  | .NSEC3 => some [.u8, .u8, .u16, .binary, .binary, .binary]
  | .NSEC3PARAM => some [.u8, .u8, .u16, .binary]
  | .OPT => some [.binary]
  | .URI => some [.u16, .u16, .string]
  | .CAA => some [.u8, .string, .string]
  | _ => none

/-- the fields one after the other -/
def FieldsText : List Disp → List UInt8 → List FieldVal → List UInt8 → Prop
  | [], s, vs, rest => vs = [] ∧ rest = s
  | k :: ks, s, v :: vs, rest => ∃ mid, FieldText k s v mid ∧ FieldsText ks mid vs rest
  | _ :: _, _, [], _ => False

/-- `s` starts with the data `rd` in the notation of its type, and `rest` follows -/
def DataTextThen (s : List UInt8) (rd : RData) (rest : List UInt8) : Prop := ∃ ks, dataForm rd.kind = some ks ∧ FieldsText ks s rd.fields rest

/-- what follows the data is not looked at -/
def DataText (s : List UInt8) (rd : RData) : Prop := ∃ rest, DataTextThen s rd rest

/-- owner, TTL, class (IN if it is missing), type and data -/
def SetText (s : List UInt8) (r : RRset) : Prop :=
  ∃ wn s1 wt s2 s3 rd, FirstWord s wn s1 ∧ NameText wn r.name ∧ FirstWord s1 wt s2 ∧ NumberText 4294967295 wt r.ttl.toNat ∧
    ((∃ wc s2' wy, FirstWord s2 wc s2' ∧ ClassText wc r.class_ ∧ FirstWord s2' wy s3 ∧ TypeText wy r.typ) ∨
     (∃ wy, FirstWord s2 wy s3 ∧ TypeText wy r.typ ∧ r.class_ = .IN)) ∧
    rd.kind = r.typ ∧ DataText s3 rd ∧ r.rdatas = [rd]

/-- the data of a type up to a time that is broken -/
def BrokenData (typ : RRType) (s : List UInt8) : Prop :=
  ∃ before behind vs mid w rest, dataForm typ = some (before ++ .timestamp :: behind) ∧ FieldsText before s vs mid ∧ FirstWord mid w rest ∧ BrokenStamp w

/-- a record up to a time that is broken -/
def BrokenSet (s : List UInt8) : Prop :=
  ∃ wn n s1 wt ttl s2 s3 typ, FirstWord s wn s1 ∧ NameText wn n ∧ FirstWord s1 wt s2 ∧ NumberText 4294967295 wt ttl ∧
    ((∃ wc c s2' wy, FirstWord s2 wc s2' ∧ ClassText wc c ∧ FirstWord s2' wy s3 ∧ TypeText wy typ) ∨ ∃ wy, FirstWord s2 wy s3 ∧ TypeText wy typ) ∧
    BrokenData typ s3

/-- nothing but white space, in a debug build, or a record up to a time that is broken -/
def BadLine (m : Build) (s : List UInt8) : Prop := (m = .debug ∧ Trimmed s []) ∨ ∃ t, Trimmed s t ∧ BrokenSet t

end R53
