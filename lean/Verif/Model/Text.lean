import Verif.Model.RRset
import Verif.Model.Hex
/-!
# Model of `util/string_buffer.rs`, `rdatafield/string_encode.rs`, `rdatafield/string_decode.rs`, of the text half of
`rdata.rs` and of the derive macro, and of the text half of `rrset.rs`

A Rust `str` is its list of UTF-8 octets. Of the standard library and the dependencies, decimal numbers, UTF-8 checking,
`trim` and the calendar of the `time` crate are written out here; the texts of IP addresses (`std::net`) and base64 (crate
`base64`) are parameters (`Ext`).
-/
namespace R53

/-! ## Standard library -/

/-- `u8::is_ascii_whitespace` (string_buffer.rs:78, 98): space, tab, line feed, form feed, carriage return -/
def isAsciiSpace (c : UInt8) : Bool := c == 32 || c == 9 || c == 10 || c == 12 || c == 13
/-- `u8::is_ascii_digit` (string_buffer.rs:57) -/
def isAsciiDigit (c : UInt8) : Bool := 48 ≤ c.toNat && c.toNat ≤ 57
/-- a UTF-8 continuation octet, for `from_utf8` (string_buffer.rs:61, 104, 112) -/
def isCont (c : UInt8) : Bool := 0x80 ≤ c.toNat && c.toNat ≤ 0xBF

/-- `std::str::from_utf8(..).is_ok()` (string_buffer.rs:61, 104, 112): the table of RFC 3629 §4 -/
def isUtf8 : List UInt8 → Bool
  | [] => true
  | a :: t =>
    if a.toNat < 0x80 then isUtf8 t
    else if 0xC2 ≤ a.toNat ∧ a.toNat ≤ 0xDF then
      match t with
      | b :: t => isCont b && isUtf8 t
      | _ => false
    else if 0xE0 ≤ a.toNat ∧ a.toNat ≤ 0xEF then
      match t with
      | b :: c :: t => isCont b && (a != 0xE0 || 0xA0 ≤ b.toNat) && (a != 0xED || b.toNat ≤ 0x9F) && isCont c && isUtf8 t
      | _ => false
    else if 0xF0 ≤ a.toNat ∧ a.toNat ≤ 0xF4 then
      match t with
      | b :: c :: d :: t =>
        isCont b && (a != 0xF0 || 0x90 ≤ b.toNat) && (a != 0xF4 || b.toNat ≤ 0x8F) && isCont c && isCont d && isUtf8 t
      | _ => false
    else false

/-- `from_utf8(b)` string_buffer.rs:61 -/
def from_utf8 (b : List UInt8) : Res (List UInt8) := if isUtf8 b then .ok b else .err
/-- `from_utf8(b).unwrap()` string_buffer.rs:104, 112 -/
def from_utf8_unwrap (b : List UInt8) : Res (List UInt8) := if isUtf8 b then .ok b else .panic

/-- `str::is_char_boundary`, part of `&s[a..b]` (string_decode.rs:51-54) -/
def isCharBoundary (s : List UInt8) (i : Nat) : Bool :=
  i == 0 || i == s.length || (match s[i]? with | some c => !isCont c | none => false)

/-- `&s[a..b]` on a `str` (string_decode.rs:51-54): panics out of range and inside a character -/
def strSlice (s : List UInt8) (a b : Nat) : Res (List UInt8) :=
  if isCharBoundary s a ∧ isCharBoundary s b then slice s a b else .panic

/-- the digits of `parse` (string_buffer.rs:61, 89; string_decode.rs:51-54; rrset.rs:27), with the overflow checks after every digit -/
def parseDigits (max : Nat) : List UInt8 → Nat → Res Nat
  | [], acc => .ok acc
  | c :: t, acc =>
    if isAsciiDigit c then
      let acc := acc * 10 + (c.toNat - 48)
      if acc ≤ max then parseDigits max t acc else .err
    else .err

/-- `s.parse::<u8 | u16 | u32>()` (string_buffer.rs:61, 89; string_decode.rs:51-54; rrset.rs:27): an optional `+`, then at least one digit -/
def parseNum (max : Nat) (s : List UInt8) : Res Nat :=
  match s with
  | [] => .err
  | c :: t => if c = 43 ∧ t ≠ [] then parseDigits max t 0 else parseDigits max (c :: t) 0

/-- `s.parse::<i32>()` (string_decode.rs:51); the overflow at `-2147483648` does not matter on the four octets it is used on -/
def parseInt (s : List UInt8) : Res Int :=
  match s with
  | [] => .err
  | c :: t =>
    if c = 45 ∧ t ≠ [] then do
      let n ← parseDigits 2147483647 t 0
      pure (-(n : Int))
    else do
      let n ← parseNum 2147483647 (c :: t)
      pure (n : Int)

/-- `to_string()` of an unsigned number (string_encode.rs:20-34) -/
def decimal (n : Nat) : List UInt8 :=
  if n < 10 then [UInt8.ofNat (48 + n)] else decimal (n / 10) ++ [UInt8.ofNat (48 + n % 10)]

/-- `char::is_whitespace` for ASCII (string_decode.rs:73; `str::trim` rrset.rs:175) -/
def isSpaceAscii (c : UInt8) : Bool := (9 ≤ c.toNat && c.toNat ≤ 13) || c == 32

/-- the other `White_Space` characters, from the front (string_decode.rs:73; `str::trim` rrset.rs:175) -/
def spaceAheadU : List UInt8 → Nat
  | 0xC2 :: 0x85 :: _ => 2
  | 0xC2 :: 0xA0 :: _ => 2
  | 0xE1 :: 0x9A :: 0x80 :: _ => 3
  | 0xE2 :: 0x81 :: 0x9F :: _ => 3
  | 0xE3 :: 0x80 :: 0x80 :: _ => 3
  | 0xE2 :: 0x80 :: c :: _ => if (0x80 ≤ c.toNat ∧ c.toNat ≤ 0x8A) ∨ c = 0xA8 ∨ c = 0xA9 ∨ c = 0xAF then 3 else 0
  | _ => 0

/-- length of the white space character (Unicode `White_Space`) at the front, 0 if there is none (string_decode.rs:73, `str::trim` rrset.rs:175) -/
def spaceAhead : List UInt8 → Nat
  | [] => 0
  | c :: t => if isSpaceAscii c then 1 else spaceAheadU (c :: t)

/-- the other `White_Space` characters, from the end of the text (`str::trim` rrset.rs:175) -/
def spaceBehindU : List UInt8 → Nat
  | 0x85 :: 0xC2 :: _ => 2
  | 0xA0 :: 0xC2 :: _ => 2
  | 0x80 :: 0x9A :: 0xE1 :: _ => 3
  | 0x9F :: 0x81 :: 0xE2 :: _ => 3
  | 0x80 :: 0x80 :: 0xE3 :: _ => 3
  | c :: 0x80 :: 0xE2 :: _ => if (0x80 ≤ c.toNat ∧ c.toNat ≤ 0x8A) ∨ c = 0xA8 ∨ c = 0xA9 ∨ c = 0xAF then 3 else 0
  | _ => 0

/-- the same for the last character, on the reversed text (`str::trim` rrset.rs:175) -/
def spaceBehind : List UInt8 → Nat
  | [] => 0
  | c :: t => if isSpaceAscii c then 1 else spaceBehindU (c :: t)

/-- drop white space characters (`str::trim` rrset.rs:175), `fuel` = the length is enough -/
def dropSpaces (ahead : List UInt8 → Nat) : Nat → List UInt8 → List UInt8
  | 0, s => s
  | fuel + 1, s => if ahead s = 0 then s else dropSpaces ahead fuel (s.drop (ahead s))

/-- `str::trim` (rrset.rs:175) -/
def trim (s : List UInt8) : List UInt8 :=
  let t := dropSpaces spaceAhead s.length s
  (dropSpaces spaceBehind t.length t.reverse).reverse

/-! ## `StringBuffer` -/

/-- `StringBuffer` string_buffer.rs:7-10 -/
structure StrBuf where
  raw : List UInt8
  pos : Nat
deriving DecidableEq, Repr

namespace StrBuf

/-- string_buffer.rs:13-20; the `debug_assert!` is only in debug builds -/
def new (m : Build) (s : List UInt8) : Res StrBuf := do
  if m = .debug then assertR (s ≠ [])
  pure ⟨s, 0⟩

/-- string_buffer.rs:122-124 -/
def is_eos (b : StrBuf) : Bool := b.pos == b.raw.length

/-- the loops of `skip_whitespace` (78-80) and `read_str` (98-100): advance over the octets satisfying `p`.
`fuel` = the octets left is enough. (string_buffer.rs) -/
def skipWhile (p : UInt8 → Bool) (raw : List UInt8) : (fuel pos : Nat) → Res Nat
  | fuel, pos =>
    if pos = raw.length then .ok pos
    else match fuel with
      | 0 => .panic
      | fuel + 1 => do
        let c ← idx raw pos
        if p c then skipWhile p raw fuel (pos + 1) else pure pos

/-- string_buffer.rs:77-81 -/
def skip_whitespace : St StrBuf Unit := do
  let b ← St.get
  let p ← St.lift (skipWhile isAsciiSpace b.raw (b.raw.length - b.pos) b.pos)
  St.put { b with pos := p }

/-- the three digits string_buffer.rs:58-61 -/
def escapedNum (raw : List UInt8) (pos : Nat) : Res UInt8 := do
  let left ← csub raw.length pos
  if left < 3 then .err
  else do
    let d ← slice raw pos (pos + 3)
    let d ← from_utf8 d
    let n ← parseNum 255 d
    pure (UInt8.ofNat n)

/-- the loop of `read_char_string` string_buffer.rs:44-74 with its variables, and the final `pos`;
`fuel` = the octets left is enough -/
def charLoop (raw : List UInt8) : (fuel pos : Nat) → (escape : Bool) → (data : List UInt8) → Res (List UInt8) × Nat
  | fuel, pos, escape, data =>
    if pos = raw.length then (.err, pos)
    else match fuel with
      | 0 => (.panic, pos)
      | fuel + 1 =>
        match idx raw pos with
        | .err => (.err, pos)
        | .panic => (.panic, pos)
        | .ok c =>
          if c = 92 ∧ escape = false then charLoop raw fuel (pos + 1) true data
          else if c = 34 ∧ escape = false then ((if data = [] then .err else .ok data), pos + 1)
          else if escape = true ∧ isAsciiDigit c then
            match escapedNum raw pos with
            | .err => (.err, pos)
            | .panic => (.panic, pos)
            | .ok num =>
              if (data ++ [num]).length > 255 then (.err, pos + 3)
              else charLoop raw fuel (pos + 3) false (data ++ [num])
          else if (data ++ [c]).length > 255 then (.err, pos + 1)
          else charLoop raw fuel (pos + 1) false (data ++ [c])

/-- after the opening quote, string_buffer.rs:41-74 -/
def charBody : St StrBuf (List UInt8) := fun b =>
  ((charLoop b.raw (b.raw.length - (b.pos + 1)) (b.pos + 1) false []).1,
    { b with pos := (charLoop b.raw (b.raw.length - (b.pos + 1)) (b.pos + 1) false []).2 })

/-- string_buffer.rs:35-75 -/
def read_char_string : St StrBuf (List UInt8) := do
  skip_whitespace
  let b ← St.get
  if b.is_eos then St.fail
  else do
    let c ← St.lift (idx b.raw b.pos)
    if c ≠ 34 then St.fail
    else charBody

/-- the loop of `read_text` string_buffer.rs:24-30; every turn reads an octet -/
def textLoop : (fuel : Nat) → List (List UInt8) → St StrBuf (List (List UInt8))
  | 0, _ => St.boom
  | fuel + 1, data => do
    let s ← read_char_string
    let b ← St.get
    if b.is_eos then pure (data ++ [s]) else textLoop fuel (data ++ [s])

/-- string_buffer.rs:22-33 -/
def read_text : St StrBuf (List (List UInt8)) := do
  let b ← St.get
  let data ← textLoop (b.raw.length - b.pos + 1) []
  St.lift (ensure (data ≠ []))
  pure data

/-- string_buffer.rs:95-106, also `Iterator::next` 127-132 -/
def read_str : St StrBuf (Option (List UInt8)) := do
  skip_whitespace
  let b ← St.get
  let p ← St.lift (skipWhile (fun c => !isAsciiSpace c) b.raw (b.raw.length - b.pos) b.pos)
  St.put { b with pos := p }
  if p = b.pos then pure none
  else do
    let s ← St.lift (slice b.raw b.pos p)
    let s ← St.lift (from_utf8_unwrap s)
    pure (some s)

/-- string_buffer.rs:108-116, also `left_str` 118-120 -/
def read_left : St StrBuf (Option (List UInt8)) := do
  let b ← St.get
  if b.is_eos then pure none
  else do
    let s ← St.lift (slice b.raw b.pos b.raw.length)
    let s ← St.lift (from_utf8_unwrap s)
    St.put { b with pos := b.raw.length }
    pure (some s)

/-- `read::<T>` string_buffer.rs:83-93; `parse` is the `FromStr` of `T` -/
def read {α : Type} (parse : List UInt8 → Res α) : St StrBuf α := do
  match ← read_str with
  | some s => St.lift (parse s)
  | none => St.fail

end StrBuf

/-! ## Calendar (crate `time` 0.2: `Date`, `Time`, `OffsetDateTime`) -/

namespace Cal

/-- Gregorian leap years: crate `time`, used in string_decode.rs:50-59 and string_encode.rs:43-49 -/
def isLeap (y : Int) : Bool := y % 4 == 0 && (y % 100 != 0 || y % 400 == 0)
/-- days of a month 1..12: crate `time`, as `isLeap` (string_decode.rs:50-59, string_encode.rs:43-49) -/
def daysInMonth (y : Int) (m : Nat) : Nat :=
  if m = 2 then (if isLeap y then 29 else 28)
  else if m = 4 ∨ m = 6 ∨ m = 9 ∨ m = 11 then 30
  else 31
/-- days of a year: crate `time`, as `isLeap` (string_decode.rs:50-59, string_encode.rs:43-49) -/
def daysInYear (y : Int) : Nat := if isLeap y then 366 else 365
/-- days from 1970-01-01 to the first of January of `y`: crate `time` (string_decode.rs:50-59, string_encode.rs:43-49) -/
def daysBeforeYear (y : Int) : Int := 365 * (y - 1970) + (y - 1) / 4 - (y - 1) / 100 + (y - 1) / 400 - 477
/-- days of the months before month `m`: crate `time` (string_decode.rs:50-59, string_encode.rs:43-49) -/
def daysBeforeMonth (y : Int) : Nat → Nat
  | 0 => 0
  | 1 => 0
  | m + 1 => daysBeforeMonth y m + daysInMonth y m

/-- `Date::try_from_ymd(..)?.with_time(Time::try_from_hms(..)?).assume_utc().unix_timestamp()` (string_decode.rs:50-59) -/
def timestamp (y : Int) (mo d h mi s : Nat) : Res Int :=
  if -100000 ≤ y ∧ y ≤ 100000 ∧ 1 ≤ mo ∧ mo ≤ 12 ∧ 1 ≤ d ∧ d ≤ daysInMonth y mo ∧ h ≤ 23 ∧ mi ≤ 59 ∧ s ≤ 59 then
    .ok ((daysBeforeYear y + (daysBeforeMonth y mo : Int) + (d : Int) - 1) * 86400 + (h * 3600 + mi * 60 + s : Nat))
  else .err

/-- the year and the day of it, `days` after 1 January of `y`; `fuel` = `days` is enough (string_encode.rs:43-49) -/
def splitYear : Nat → Nat → Nat → Nat × Nat
  | 0, y, days => (y, days)
  | fuel + 1, y, days => if days < daysInYear y then (y, days) else splitYear fuel (y + 1) (days - daysInYear y)
/-- the month and the day of it from 0, `days` after the first of month `m` (string_encode.rs:43-49) -/
def splitMonth (y : Nat) : Nat → Nat → Nat → Nat × Nat
  | 0, m, days => (m, days)
  | fuel + 1, m, days => if days < daysInMonth y m then (m, days) else splitMonth y fuel (m + 1) (days - daysInMonth y m)

/-- two digits, for the format of string_encode.rs:47 -/
def two (n : Nat) : List UInt8 := [UInt8.ofNat (48 + n / 10 % 10), UInt8.ofNat (48 + n % 10)]

/-- `OffsetDateTime::from_unix_timestamp(secs as i64).format("%Y%m%d%H%M%S")` for a `u32` (years 1970 to 2106) (string_encode.rs:43-49) -/
def format (secs : UInt32) : List UInt8 :=
  let days := secs.toNat / 86400
  let t := secs.toNat % 86400
  let yd := splitYear days 1970 days
  let md := splitMonth yd.1 11 1 yd.2
  two (yd.1 / 100) ++ two (yd.1 % 100) ++ two md.1 ++ two (md.2 + 1) ++ two (t / 3600) ++ two (t / 60 % 60) ++ two (t % 60)

end Cal

/-! ## Fields -/

/-- texts of IP addresses (`std::net`: `Display`, `FromStr`) and base64 (crate `base64`), not part of the repository (string_encode.rs:12-18, 73-75; string_decode.rs:12-18, 68-77) -/
structure Ext where
  showV4 : List UInt8 → List UInt8
  parseV4 : List UInt8 → Option (List UInt8)
  showV6 : List UInt8 → List UInt8
  parseV6 : List UInt8 → Option (List UInt8)
  encode64 : List UInt8 → List UInt8
  decode64 : List UInt8 → Option (List UInt8)

/-- `Err` for `None` / a parse error (string_decode.rs:12-18, 62-77) -/
def Res.ofOption {α : Type} : Option α → Res α
  | some a => .ok a
  | none => .err

namespace Field

/-- one octet in `string_to_str` string_encode.rs:53-65; the `u8` sums cannot overflow -/
def char_to_str (ch : UInt8) : List UInt8 :=
  if ch < 0x20 ∨ ch ≥ 0x7f then [92, 0x30 + ((ch / 100) % 10), 0x30 + ((ch / 10) % 10), 0x30 + ch % 10]
  else if ch = 34 ∨ ch = 59 ∨ ch = 92 then [92, ch]
  else [ch]

/-- string_encode.rs:51-67 -/
def string_to_str (d : List UInt8) : List UInt8 := 34 :: d.flatMap char_to_str ++ [34]

/-- string_encode.rs:36-41 -/
def text_to_str : List (List UInt8) → List UInt8
  | [] => []
  | d :: ds => string_to_str d ++ text_to_str ds

/-- string_encode.rs:8-75; the display kind and the value agree by the Rust types (`panic` otherwise) -/
def to_str (x : Ext) : Disp → FieldVal → Res (List UInt8)
  | .name, .name n => n.to_string
  | .ipv4, .ip o => .ok (x.showV4 o)
  | .ipv6, .ip o => .ok (x.showV6 o)
  | .u8, .u8 v => .ok (decimal v.toNat)
  | .u16, .u16 v => .ok (decimal v.toNat)
  | .u32, .u32 v => .ok (decimal v.toNat)
  | .rrtype, .rrtype t => .ok t.to_str
  | .text, .text ds => .ok (text_to_str ds)
  | .timestamp, .u32 v => .ok (Cal.format v)
  | .string, .bytes d => .ok (string_to_str d)
  | .binary, .bytes d => Hex.to_hex d
  | .base64, .bytes d => .ok (x.encode64 d)
  | _, _ => .panic

/-- the slices and numbers of `timestamp_from_str` string_decode.rs:44-60; `as u32` keeps the low 32 bits -/
def timestampParse (ts : List UInt8) : Res UInt32 := do
  ensure (ts.length = 14)
  let s ← strSlice ts 0 4
  let y ← parseInt s
  let s ← strSlice ts 4 6
  let mo ← parseNum 255 s
  let s ← strSlice ts 6 8
  let d ← parseNum 255 s
  -- `Date::try_from_ymd(..)?` fails before the time is looked at
  let _ ← Cal.timestamp y mo d 0 0 0
  let s ← strSlice ts 8 10
  let h ← parseNum 255 s
  let s ← strSlice ts 10 12
  let mi ← parseNum 255 s
  let s ← strSlice ts 12 14
  let sec ← parseNum 255 s
  let t ← Cal.timestamp y mo d h mi sec
  pure (UInt32.ofNat (t % 4294967296).toNat)

/-- `s.chars().filter(|c| !c.is_whitespace())` string_decode.rs:73 on the octets: drop every white space character;
`fuel` = the length is enough -/
def stripSpaces : Nat → List UInt8 → List UInt8
  | 0, s => s
  | fuel + 1, s =>
    if spaceAhead s ≠ 0 then stripSpaces fuel (s.drop (spaceAhead s))
    else match s with
      | [] => []
      | c :: t => c :: stripSpaces fuel t

/-- string_decode.rs:68-77 -/
def base64_from_str (x : Ext) : St StrBuf FieldVal := do
  match ← StrBuf.read_left with
  | some s => do pure (.bytes (← St.lift (Res.ofOption (x.decode64 (stripSpaces s.length s)))))
  | none => St.fail

/-- string_decode.rs:8-77 -/
def from_str (x : Ext) : Disp → St StrBuf FieldVal
  | .name => do pure (.name (← StrBuf.read Name.new))
  | .ipv4 => do pure (.ip (← StrBuf.read fun s => Res.ofOption (x.parseV4 s)))
  | .ipv6 => do pure (.ip (← StrBuf.read fun s => Res.ofOption (x.parseV6 s)))
  | .u8 => do pure (.u8 (UInt8.ofNat (← StrBuf.read (parseNum 255))))
  | .u16 => do pure (.u16 (UInt16.ofNat (← StrBuf.read (parseNum 65535))))
  | .u32 => do pure (.u32 (UInt32.ofNat (← StrBuf.read (parseNum 4294967295))))
  | .rrtype => do pure (.rrtype (← StrBuf.read RRType.from_str))
  | .text => do pure (.text (← StrBuf.read_text))
  | .timestamp => do pure (.u32 (← StrBuf.read timestampParse))
  | .string => do pure (.bytes (← StrBuf.read_char_string))
  | .binary => do pure (.bytes (← StrBuf.read fun s => Res.ofOption (Hex.from_hex s)))
  | .base64 => base64_from_str x

/-- the fields of the derived `from_str`, expand.rs:80-96 -/
def allFromStr (x : Ext) : List (Codec × Disp) → St StrBuf (List FieldVal)
  | [] => pure []
  | c :: cs => do
    let v ← from_str x c.2
    let vs ← allFromStr x cs
    pure (v :: vs)

/-- the derived `Display`, expand.rs:98-138: one space after every field but the last -/
def allToStr (x : Ext) : List (Codec × Disp) → List FieldVal → Res (List UInt8)
  | [], _ => .ok []
  | _ :: _, [] => .panic
  | c :: cs, v :: vs => do
    let t ← to_str x c.2 v
    if cs = [] then pure t
    else do
      let r ← allToStr x cs vs
      pure (t ++ [32] ++ r)

end Field

namespace RData

/-- rdata.rs:56-63 -/
def from_string_buffer (x : Ext) (typ : RRType) : St StrBuf RData :=
  match schema typ with
  | none => St.fail
  | some cs => do
    let vs ← Field.allFromStr x cs
    pure ⟨typ, vs⟩

/-- rdata.rs:51-54 -/
def from_str (x : Ext) (m : Build) (typ : RRType) (s : List UInt8) : Res RData := do
  let b ← StrBuf.new m s
  ((from_string_buffer x typ) b).1

/-- `Display` rdata.rs:74-82 -/
def to_str (x : Ext) (rd : RData) : Res (List UInt8) :=
  match schema rd.kind with
  | none => .panic
  | some cs => Field.allToStr x cs rd.fields

end RData

namespace RRset

/-- `labels.next()` with the `bail!` of the `else` branches, rrset.rs:177-207 -/
def nextWord : St StrBuf (List UInt8) := do
  match ← StrBuf.read_str with
  | some s => pure s
  | none => St.fail

/-- class and type, rrset.rs:189-210: without a class the word is the type and the class IN -/
def classType : St StrBuf (RRClass × RRType) := do
  let w ← nextWord
  match RRClass.from_str w with
  | .ok c => do
    let w ← nextWord
    let t ← St.lift (RRType.from_str w)
    pure (c, t)
  | _ => do
    let t ← St.lift (RRType.from_str w)
    pure (.IN, t)

/-- rrset.rs:177-220, after the buffer is made -/
def parse (x : Ext) : St StrBuf RRset := do
  let w ← nextWord
  let name ← St.lift (Name.new w)
  let w ← nextWord
  let ttl ← St.lift (parseNum 4294967295 w)
  let ct ← classType
  let rd ← RData.from_string_buffer x ct.2
  pure ⟨name, ct.2, ct.1, UInt32.ofNat ttl, [rd]⟩

/-- `FromStr` rrset.rs:172-221 -/
def from_str (x : Ext) (m : Build) (s : List UInt8) : Res RRset := do
  let b ← StrBuf.new m (trim s)
  (parse x b).1

/-- the fold of `from_strs` rrset.rs:86-93; `current.rdatas.remove(0)` panics on an empty list -/
def strsFold (x : Ext) (m : Build) (r : RRset) : List (List UInt8) → Res RRset
  | [] => .ok r
  | s :: ss => do
    let current ← from_str x m s
    if r.typ ≠ current.typ then .err
    else match current.rdatas with
      | [] => .panic
      | rd :: _ => strsFold x m { r with rdatas := r.rdatas ++ [rd] } ss

/-- rrset.rs:74-94 -/
def from_strs (x : Ext) (m : Build) (ss : List (List UInt8)) : Res RRset := do
  assertR (ss ≠ [])
  let s ← idx ss 0
  let last ← from_str x m s
  if ss.length = 1 then pure last
  else if last.typ = .OPT then .err
  else strsFold x m last (ss.drop 1)

/-- rrset.rs:119-127 -/
def header (s : RRset) : Res (List UInt8) := do
  let n ← s.name.to_string
  pure (n ++ [9] ++ decimal s.ttl.toNat ++ [9] ++ s.class_.to_str ++ [9] ++ s.typ.to_str)

/-- one line of `Display` rrset.rs:227 -/
def line (x : Ext) (s : RRset) (rd : RData) : Res (List UInt8) := do
  let h ← s.header
  let t ← rd.to_str x
  pure (h ++ [9] ++ t ++ [10])

/-- `Display` rrset.rs:223-231 -/
def linesOf (x : Ext) (s : RRset) : List RData → Res (List UInt8)
  | [] => .ok []
  | rd :: rds => do
    let l ← s.line x rd
    let ls ← s.linesOf x rds
    pure (l ++ ls)
/-- `Display` rrset.rs:223-231 -/
def to_string (x : Ext) (s : RRset) : Res (List UInt8) := s.linesOf x s.rdatas

end RRset
end R53
