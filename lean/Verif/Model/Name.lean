import Verif.Model.Buffer
import Verif.Spec.Name
/-!
# Model of `name.rs`, `label_slice.rs`, `label_sequence.rs`

Offsets (`Vec<u8>` in Rust) are `List Nat` with the `u8` casts written out (`% 256`).
-/
namespace R53

/-- name.rs:22 -/
def MAX_WIRE_LEN : Nat := 255
/-- name.rs:23 -/
def MAX_LABEL_COUNT : Nat := 128
/-- name.rs:24 -/
def MAX_LABEL_LEN : Nat := 63

/-- `Name` (name.rs:28-32) -/
structure Name where
  raw : List UInt8
  offsets : List Nat
deriving DecidableEq, Repr

/-- the in-memory form the Rust type is meant to have for the labels `ls`: wire octets and the
offset of every label, the root included. Used to state theorems, not by the model functions. (name.rs:28-32) -/
def Name.ofLabels (ls : List Label) : Name := ⟨wire (ls ++ [[]]), starts 0 (ls ++ [[]])⟩

/-- a well-formed name value (name.rs:28-32) -/
def Name.WF (n : Name) : Prop := ∃ ls, ValidName ls ∧ n = Name.ofLabels ls

/-- name.rs:92-109 (the table copied) -/
def MAP_TO_LOWER : List UInt8 := [
   0x00, 0x01, 0x02, 0x03, 0x04, 0x05, 0x06, 0x07, 0x08, 0x09, 0x0a, 0x0b, 0x0c, 0x0d, 0x0e, 0x0f,
   0x10, 0x11, 0x12, 0x13, 0x14, 0x15, 0x16, 0x17, 0x18, 0x19, 0x1a, 0x1b, 0x1c, 0x1d, 0x1e, 0x1f,
   0x20, 0x21, 0x22, 0x23, 0x24, 0x25, 0x26, 0x27, 0x28, 0x29, 0x2a, 0x2b, 0x2c, 0x2d, 0x2e, 0x2f,
   0x30, 0x31, 0x32, 0x33, 0x34, 0x35, 0x36, 0x37, 0x38, 0x39, 0x3a, 0x3b, 0x3c, 0x3d, 0x3e, 0x3f,
   0x40, 0x61, 0x62, 0x63, 0x64, 0x65, 0x66, 0x67, 0x68, 0x69, 0x6a, 0x6b, 0x6c, 0x6d, 0x6e, 0x6f,
   0x70, 0x71, 0x72, 0x73, 0x74, 0x75, 0x76, 0x77, 0x78, 0x79, 0x7a, 0x5b, 0x5c, 0x5d, 0x5e, 0x5f,
   0x60, 0x61, 0x62, 0x63, 0x64, 0x65, 0x66, 0x67, 0x68, 0x69, 0x6a, 0x6b, 0x6c, 0x6d, 0x6e, 0x6f,
   0x70, 0x71, 0x72, 0x73, 0x74, 0x75, 0x76, 0x77, 0x78, 0x79, 0x7a, 0x7b, 0x7c, 0x7d, 0x7e, 0x7f,
   0x80, 0x81, 0x82, 0x83, 0x84, 0x85, 0x86, 0x87, 0x88, 0x89, 0x8a, 0x8b, 0x8c, 0x8d, 0x8e, 0x8f,
   0x90, 0x91, 0x92, 0x93, 0x94, 0x95, 0x96, 0x97, 0x98, 0x99, 0x9a, 0x9b, 0x9c, 0x9d, 0x9e, 0x9f,
   0xa0, 0xa1, 0xa2, 0xa3, 0xa4, 0xa5, 0xa6, 0xa7, 0xa8, 0xa9, 0xaa, 0xab, 0xac, 0xad, 0xae, 0xaf,
   0xb0, 0xb1, 0xb2, 0xb3, 0xb4, 0xb5, 0xb6, 0xb7, 0xb8, 0xb9, 0xba, 0xbb, 0xbc, 0xbd, 0xbe, 0xbf,
   0xc0, 0xc1, 0xc2, 0xc3, 0xc4, 0xc5, 0xc6, 0xc7, 0xc8, 0xc9, 0xca, 0xcb, 0xcc, 0xcd, 0xce, 0xcf,
   0xd0, 0xd1, 0xd2, 0xd3, 0xd4, 0xd5, 0xd6, 0xd7, 0xd8, 0xd9, 0xda, 0xdb, 0xdc, 0xdd, 0xde, 0xdf,
   0xe0, 0xe1, 0xe2, 0xe3, 0xe4, 0xe5, 0xe6, 0xe7, 0xe8, 0xe9, 0xea, 0xeb, 0xec, 0xed, 0xee, 0xef,
   0xf0, 0xf1, 0xf2, 0xf3, 0xf4, 0xf5, 0xf6, 0xf7, 0xf8, 0xf9, 0xfa, 0xfb, 0xfc, 0xfd, 0xfe, 0xff
  ]

/-- `lower_case` name.rs:112-114. The index is an octet and the table has 256 entries
(`map_to_lower_length`), so the Rust index cannot panic and `getD` never uses its default. -/
def lower_case (c : UInt8) : UInt8 := (MAP_TO_LOWER[c.toNat]?).getD 0

namespace Name

/-- name.rs:34-39 -/
def root : Name := ⟨[0], [0]⟩
/-- name.rs:311-313 -/
def len (n : Name) : Nat := n.raw.length
/-- name.rs:316-318 -/
def is_empty (n : Name) : Bool := n.len == 0
/-- name.rs:321-323 -/
def label_count (n : Name) : Nat := n.offsets.length

/-! ### `string_parse` -/

/-- name.rs:48-56 -/
inductive FtStat where
  | Init | Start | Ordinary | Initialescape | Escape | Escdecimal
deriving DecidableEq, Repr

/-- the local variables of `string_parse` (name.rs:122-131); `start`/`end` are represented by the
remaining input, `is_root` by `done` with an immediate exit. -/
structure Ft where
  data : List UInt8
  offsets : List Nat
  count : Nat
  digits : Nat
  value : Nat
  done : Bool
  state : FtStat
deriving DecidableEq, Repr

/-- name.rs:65-68 -/
def isDigit (c : UInt8) : Bool := 48 ≤ c && c ≤ 57

/-- `data[offsets[offsets.len() - 1] as usize] = count` (name.rs:167, 221) -/
def setCount (s : Ft) : Res Ft := do
  let k ← csub s.offsets.length 1
  let o ← idx s.offsets k
  let _ ← idx s.data o
  pure { s with data := s.data.set o (UInt8.ofNat s.count) }

/-- name.rs:164-182; `last` is `start == end` after reading `c`. -/
def ftOrdinary (c : UInt8) (last : Bool) (s : Ft) : Res Ft :=
  if c = 46 then do
    ensure (s.count ≠ 0)
    let s ← setCount s
    let s := { s with offsets := s.offsets ++ [s.data.length % 256] }
    if last then pure { s with data := s.data ++ [0], done := true }
    else pure { s with state := .Start }
  else if c = 92 then pure { s with state := .Escape }
  else do
    let s := { s with count := s.count + 1 }
    ensure (s.count ≤ MAX_LABEL_LEN)
    pure { s with data := s.data ++ [c] }

/-- name.rs:197-209 (pushes the digit character, as the source does) -/
def ftEscdecimal (c : UInt8) (s : Ft) : Res Ft := do
  ensure (isDigit c = true)
  let s := { s with value := s.value * 10 + (c.toNat - 48), digits := s.digits + 1 }
  if s.digits = 3 then do
    ensure (s.value ≤ 255)
    let s := { s with count := s.count + 1 }
    ensure (s.count ≤ MAX_LABEL_LEN)
    pure { s with data := s.data ++ [c], state := .Ordinary }
  else pure s

/-- name.rs:186-196; the inner loop continues with the same character in the new state. -/
def ftEscape (c : UInt8) (last : Bool) (s : Ft) : Res Ft :=
  if isDigit c = false then do
    let s := { s with count := s.count + 1 }
    ensure (s.count ≤ MAX_LABEL_LEN)
    ftOrdinary c last { s with data := s.data ++ [c], state := .Ordinary }
  else ftEscdecimal c { s with digits := 0, value := 0, state := .Escdecimal }

/-- name.rs:183-185 -/
def ftInitialescape (c : UInt8) (last : Bool) (s : Ft) : Res Ft := do
  ensure (c ≠ 91)
  ftEscape c last { s with state := .Escape }

/-- name.rs:156-163 -/
def ftStart (c : UInt8) (last : Bool) (s : Ft) : Res Ft :=
  let s := { s with data := s.data ++ [0], count := 0 }
  if c = 92 then ftInitialescape c last { s with state := .Initialescape }
  else ftOrdinary c last { s with state := .Ordinary }

/-- name.rs:142-155 -/
def ftInit (c : UInt8) (last : Bool) (s : Ft) : Res Ft :=
  if c = 46 then
    if last then pure { s with data := s.data ++ [0], done := true } else .err
  else if c = 64 ∧ last = true then pure { s with data := s.data ++ [0], done := true }
  else ftStart c last { s with state := .Start }

/-- one character through the inner loop (name.rs:141-213) -/
def ftChar (c : UInt8) (last : Bool) (s : Ft) : Res Ft :=
  match s.state with
  | .Init => ftInit c last s
  | .Start => ftStart c last s
  | .Ordinary => ftOrdinary c last s
  | .Initialescape => ftInitialescape c last s
  | .Escape => ftEscape c last s
  | .Escdecimal => ftEscdecimal c s

/-- after the loop (name.rs:216-228); `rest` is what was not read. -/
def ftFinish (as_absolute : Bool) (rest : List UInt8) (s : Ft) : Res (List UInt8 × List Nat) :=
  if s.done then pure (s.data, s.offsets)
  else do
    ensure (s.data.length < MAX_WIRE_LEN)
    assertR (rest = [])
    ensure (s.state = .Ordinary)
    assertR (s.count ≠ 0)
    let s ← setCount s
    if as_absolute then pure (s.data ++ [0], s.offsets ++ [s.data.length % 256])
    else pure (s.data, s.offsets)

/-- outer loop (name.rs:134-214) -/
def ftLoop (as_absolute : Bool) : List UInt8 → Ft → Res (List UInt8 × List Nat)
  | [], s => ftFinish as_absolute [] s
  | c :: rest, s =>
    if s.data.length ≥ MAX_WIRE_LEN then ftFinish as_absolute (c :: rest) s
    else do
      let s ← ftChar c rest.isEmpty s
      if s.done then ftFinish as_absolute rest s else ftLoop as_absolute rest s

/-- `string_parse` name.rs:116-229, on the slice `name_raw[start_pos..end]` (both callers pass the
whole string). -/
def string_parse (text : List UInt8) (as_absolute : Bool) : Res (List UInt8 × List Nat) :=
  ftLoop as_absolute text ⟨[], [0], 0, 0, 0, false, .Init⟩

/-- `Name::new` name.rs:232-238 on the octets of the string -/
def new (text : List UInt8) : Res Name := do
  let (d, o) ← string_parse text true
  pure ⟨d, o⟩

/-! ### `from_wire` -/

/-- name.rs:58-63 -/
inductive FwStat where
  | Start | Ordinary | NewCurrent
deriving DecidableEq, Repr

/-- the local variables of `from_wire` (name.rs:245-256); `brk` records a `break` (line 294). -/
structure Fw where
  n : Nat
  nused : Nat
  cused : Nat
  done : Bool
  data : List UInt8
  offsets : List Nat
  seen : Bool
  state : FwStat
  current : Nat
  biggest : Nat
  newCur : Nat
  brk : Bool

/-- loop body after `read_u8` (name.rs:260-302): new variables and an optional seek (line 299). -/
def fwStep (s0 : Fw) (c : UInt8) : Res (Fw × Option Nat) :=
  let s := { s0 with current := s0.current + 1, cused := if s0.seen then s0.cused else s0.cused + 1 }
  match s.state with
  | .Start =>
    if c.toNat ≤ MAX_LABEL_LEN then
      let s := { s with offsets := s.offsets ++ [s.nused % 256], nused := s.nused + (c.toNat + 1) }
      if s.nused ≤ MAX_WIRE_LEN then
        .ok ({ s with data := s.data ++ [c], done := s.done || c == 0, n := c.toNat, state := .Ordinary }, none)
      else .err
    else if c &&& 0xc0 = 0xc0 then
      .ok ({ s with newCur := (c &&& ~~~ 0xc0).toNat, n := 1, state := .NewCurrent }, none)
    else .err
  | .Ordinary =>
    if s.n = 0 then .panic
    else
      let n := s.n - 1
      .ok ({ s with data := s.data ++ [c], n := n, state := if n = 0 then .Start else .Ordinary }, none)
  | .NewCurrent =>
    let s := { s with newCur := s.newCur * 256 + c.toNat }
    if s.n = 0 then .panic
    else
      let n := s.n - 1
      if n ≠ 0 then .ok ({ s with n := n, brk := true }, none)
      else if s.newCur < s.biggest then
        .ok ({ s with n := n, biggest := s.newCur, current := s.newCur, seen := true, state := .Start },
          some s.newCur)
      else .err

/-- each iteration either lowers `biggest_pointer` or advances `current` -/
theorem fwStep_measure {s s' : Fw} {c : UInt8} {o : Option Nat} (h : fwStep s c = .ok (s', o)) :
    s'.biggest < s.biggest ∨ (s'.biggest = s.biggest ∧ s'.current = s.current + 1) := by
  unfold fwStep at h
  grind

/-- the `while` loop (name.rs:258-303) -/
def fwLoop (len : Nat) (s : Fw) (b : InBuf) : Res Fw × InBuf :=
  if hw : s.current < len ∧ s.done = false ∧ s.brk = false then
    match InBuf.read_u8 b with
    | (.ok c, b1) =>
      match hs : fwStep s c with
      | .ok (s1, none) => fwLoop len s1 b1
      | .ok (s1, some p) =>
        match InBuf.set_position p b1 with
        | (.ok _, b2) => fwLoop len s1 b2
        | (.err, b2) => (.err, b2)
        | (.panic, b2) => (.panic, b2)
      | .err => (.err, b1)
      | .panic => (.panic, b1)
    | (.err, b1) => (.err, b1)
    | (.panic, b1) => (.panic, b1)
  else (.ok s, b)
termination_by (s.biggest, len - s.current)
decreasing_by
  all_goals
    have := fwStep_measure hs
    rcases this with h | ⟨h1, h2⟩
    · exact Prod.Lex.left _ _ h
    · rw [h1]; apply Prod.Lex.right; omega

/-- `Name::from_wire` name.rs:244-308 -/
def from_wire : St InBuf Name := fun b =>
  let s : Fw := ⟨0, 0, 0, false, [], [], false, .Start, b.position, b.position, 0, false⟩
  match fwLoop b.len s b with
  | (.ok s', b1) =>
    if s'.done then
      match InBuf.set_position (b.position + s'.cused) b1 with
      | (.ok _, b2) => (.ok ⟨s'.data, s'.offsets⟩, b2)
      | (.err, b2) => (.err, b2)
      | (.panic, b2) => (.panic, b2)
    else (.err, b1)
  | (.err, b1) => (.err, b1)
  | (.panic, b1) => (.panic, b1)

end Name

/-- name.rs:14-20 -/
inductive NameRelation where
  | SuperDomain | SubDomain | Equal | CommonAncestor | None
deriving DecidableEq, Repr

/-- name.rs:42-46; `order` is an `i8`, kept as an integer in range. -/
structure NameComparisonResult where
  order : Int
  common_label_count : Nat
  relation : NameRelation
deriving DecidableEq, Repr

/-- Rust build profile: with overflow checks (`debug`) or without (`release`). (it decides the `i8` subtraction of label_slice.rs:110) -/
inductive Build where
  | debug | release
deriving DecidableEq, Repr

/-- `x as i8` (label_slice.rs:110) -/
def asI8 (c : UInt8) : Int := if c.toNat < 128 then (c.toNat : Int) else (c.toNat : Int) - 256

/-- `i8` subtraction: overflow panics in a debug build and wraps in a release build. (label_slice.rs:110) -/
def subI8 (m : Build) (a b : Int) : Res Int :=
  let d := a - b
  if -128 ≤ d ∧ d ≤ 127 then .ok d
  else match m with
    | .debug => .panic
    | .release => .ok (if d < -128 then d + 256 else d - 256)

/-- `LabelSlice` (label_slice.rs:8-14) -/
structure LabelSlice where
  data : List UInt8
  offsets : List Nat
  first_label : Nat
  last_label : Nat
deriving DecidableEq, Repr

/-- `LabelSequence` (label_sequence.rs:10-14) -/
structure LabelSequence where
  data : List UInt8
  offsets : List Nat
deriving DecidableEq, Repr

/-- the intended representation of a non-empty run of labels (the last may be the root label `[]`) (label_sequence.rs:10-14) -/
def LabelSequence.ofLabels (ls : List Label) : LabelSequence := ⟨wire ls, starts 0 ls⟩

namespace LabelSlice

/-- label_slice.rs:17-24 (`label_count() - 1` panics on an empty name) -/
def from_name (n : Name) : Res LabelSlice := do
  let l ← csub n.label_count 1
  pure ⟨n.raw, n.offsets, 0, l⟩

/-- label_slice.rs:26-33 (`label_count() - 1` with overflow checks; what follows without them for a sequence without labels is written out in
`LabelSequence.cmp`) -/
def from_label_sequence (s : LabelSequence) : Res LabelSlice := do
  let l ← csub s.offsets.length 1
  pure ⟨s.data, s.offsets, 0, l⟩

/-- label_slice.rs:47-50 -/
def len (s : LabelSlice) : Res Nat := do
  let ol ← idx s.offsets s.last_label
  let b ← idx s.data ol
  let lastLen ← cadd8 b.toNat 1
  let ofirst ← idx s.offsets s.first_label
  let d ← csub ol ofirst
  cadd8 d lastLen

/-- label_slice.rs:41-44 -/
def bytes (s : LabelSlice) : Res (List UInt8) := do
  let f ← idx s.offsets s.first_label
  let l ← s.len
  slice s.data f (f + l)

/-- label_slice.rs:68-70 -/
def label_count (s : LabelSlice) : Res Nat := do
  let d ← csub s.last_label s.first_label
  pure (d + 1)

/-- `eq_ignore_ascii_case` of the standard library on octets (label_slice.rs:78, label_sequence.rs:43) -/
def eqIgnoreCase (a b : List UInt8) : Bool := a.map lowerByte == b.map lowerByte

/-- label_slice.rs:72-80 -/
def equals (a b : LabelSlice) (case_sensitive : Bool) : Res Bool := do
  let la ← a.len
  let lb ← b.len
  if la ≠ lb then pure false
  else do
    let da ← a.bytes
    let db ← b.bytes
    if case_sensitive then pure (da == db) else pure (eqIgnoreCase da db)

/-- inner loop of `compare` (label_slice.rs:102-125): the first non-zero difference, if any. -/
def cmpBytes (m : Build) (cs : Bool) (d1 d2 : List UInt8) : (count pos1 pos2 : Nat) → Res (Option Int)
  | 0, _, _ => .ok none
  | count + 1, pos1, pos2 => do
    let c1 ← idx d1 pos1
    let c2 ← idx d2 pos2
    let c1 := if cs then c1 else lower_case c1
    let c2 := if cs then c2 else lower_case c2
    let chdiff ← subI8 m (asI8 c1) (asI8 c2)
    if chdiff ≠ 0 then pure (some chdiff) else cmpBytes m cs d1 d2 count (pos1 + 1) (pos2 + 1)

/-- `x as i8` for an `isize` (wraps) (label_slice.rs:128, 141) -/
def truncI8 (x : Int) : Int :=
  let r := x % 256
  if r < 128 then r else r - 256

/-- the result on a mismatch (label_slice.rs:112-120, 127-135) -/
def mismatch (order : Int) (nlabels : Nat) : NameComparisonResult :=
  ⟨order, nlabels % 256, if nlabels = 0 then .None else .CommonAncestor⟩

/-- outer loop of `compare` (label_slice.rs:89-138); `l` counts down. `ldiff` is used after the loop. -/
def cmpLoop (m : Build) (cs : Bool) (s o : LabelSlice) (ldiff : Int) :
    (l l1 l2 nlabels : Nat) → Res NameComparisonResult
  | 0, _, _, nlabels =>
    .ok ⟨truncI8 ldiff, nlabels % 256,
      if ldiff < 0 then .SuperDomain else if ldiff > 0 then .SubDomain else .Equal⟩
  | l + 1, l1, l2, nlabels => do
    let l1 ← csub l1 1
    let l2 ← csub l2 1
    let pos1 ← idx s.offsets (l1 + s.first_label)
    let pos2 ← idx o.offsets (l2 + o.first_label)
    let count1 ← idx s.data pos1
    let count2 ← idx o.data pos2
    let cdiff : Int := (count1.toNat : Int) - (count2.toNat : Int)
    let r ← cmpBytes m cs s.data o.data (min count1.toNat count2.toNat) (pos1 + 1) (pos2 + 1)
    match r with
    | some chdiff => pure (mismatch chdiff nlabels)
    | none =>
      if cdiff ≠ 0 then pure (mismatch (truncI8 cdiff) nlabels)
      else cmpLoop m cs s o ldiff l l1 l2 (nlabels + 1)

/-- `compare` label_slice.rs:82-151 -/
def compare (m : Build) (s o : LabelSlice) (case_sensitive : Bool) : Res NameComparisonResult := do
  let l1 ← s.label_count
  let l2 ← o.label_count
  cmpLoop m case_sensitive s o ((l1 : Int) - (l2 : Int)) (min l1 l2) l1 l2 0

/-- label_slice.rs:154-157 -/
def strip_left (s : LabelSlice) (index : Nat) : Res LabelSlice := do
  let c ← s.label_count
  assertR (index < c)
  pure { s with first_label := s.first_label + index }

/-- label_slice.rs:160-163 -/
def strip_right (s : LabelSlice) (index : Nat) : Res LabelSlice := do
  let c ← s.label_count
  assertR (index < c)
  let l ← csub s.last_label index
  pure { s with last_label := l }

/-- label_slice.rs:169 -/
def special : List UInt8 := [0x22, 0x28, 0x29, 0x2E, 0x3B, 0x5C, 0x40, 0x24]

/-- label_slice.rs:189-199: the text of one octet -/
def dispByte (c : UInt8) : List UInt8 :=
  if special.contains c then [92, c]
  else if c > 0x20 ∧ c < 0x7f then [c]
  else [0x5c, 0x30 + ((c / 100) % 10), 0x30 + ((c / 10) % 10), 0x30 + (c % 10)]

/-- label_slice.rs:172-201; the index `i` is represented by the remaining octets, reading past them
panics. -/
def dispLoop (d : List UInt8) (buf : List UInt8) : Res (List UInt8) :=
  match d with
  | [] => .ok buf
  | count :: rest =>
    if count = 0 then .ok (buf ++ [46])
    else
      let buf := if buf = [] then buf else buf ++ [46]
      if rest.length < count.toNat then .panic
      else dispLoop (rest.drop count.toNat) (buf ++ (rest.take count.toNat).flatMap dispByte)
termination_by d.length
decreasing_by simp; omega

/-- `Display` label_slice.rs:166-205 -/
def to_string (s : LabelSlice) : Res (List UInt8) := do
  let d ← s.bytes
  dispLoop d []

end LabelSlice

namespace LabelSequence

/-- label_sequence.rs:29-31 -/
def len (s : LabelSequence) : Nat := s.data.length
/-- label_sequence.rs:47-49 -/
def label_count (s : LabelSequence) : Nat := s.offsets.length

/-- label_sequence.rs:37-45 -/
def equals (a b : LabelSequence) (case_sensitive : Bool) : Bool :=
  if a.len ≠ b.len then false
  else if case_sensitive then a.data == b.data
  else LabelSlice.eqIgnoreCase a.data b.data

/-- subtract a `u8` from every offset, panicking on underflow (the `*v -= x` loops) (name.rs:339, 433, 446, 484, 503; label_sequence.rs:75, 80, 85) -/
def subAll (x : Nat) : List Nat → Res (List Nat)
  | [] => .ok []
  | v :: vs => do
    let v' ← csub v x
    let vs' ← subAll x vs
    pure (v' :: vs')

/-- `vec.drain(a..b)`: the removed part and what is left; panics unless `a ≤ b ≤ len`. (name.rs:332-336, label_sequence.rs:69-71) -/
def drain {α : Type} (l : List α) (a b : Nat) : Res (List α × List α) := do
  let r ← slice l a b
  pure (r, l.take a ++ l.drop b)

/-- `split` label_sequence.rs:51-90 (`&mut self`: returns the removed sequence and the rest) -/
def split (s : LabelSequence) (start_label label_count0 : Nat) : Res (LabelSequence × LabelSequence) := do
  let max := s.label_count
  ensure (start_label < max ∧ label_count0 > 0)
  let label_count := if start_label + label_count0 > max then max - start_label else label_count0
  let last_label := start_label + label_count - 1
  let ol ← idx s.offsets last_label
  let b ← idx s.data ol
  let last_label_len ← cadd8 b.toNat 1
  let data_length ← cadd8 ol last_label_len
  let ofs ← idx s.offsets start_label
  let data_offset ← csub data_length ofs
  let (data, data') ← drain s.data ofs data_length
  let (offsets, offsets') ← drain s.offsets start_label (last_label + 1)
  if start_label = 0 then do
    let offsets' ← subAll data_offset offsets'
    pure (⟨data, offsets⟩, ⟨data', offsets'⟩)
  else do
    let tail ← subAll data_offset (offsets'.drop start_label)
    let cur ← idx offsets 0
    let offsets ← subAll cur offsets
    pure (⟨data, offsets⟩, ⟨data', offsets'.take start_label ++ tail⟩)

/-- label_sequence.rs:148-150 (panics on empty data) -/
def is_absolute (s : LabelSequence) : Res Bool := do
  let k ← csub s.data.length 1
  let b ← idx s.data k
  pure (b == 0)

/-- the fold of label_sequence.rs:104-118: (middle absolute, last absolute, length, labels) -/
def scan : List LabelSequence → Bool × Bool × Nat × Nat → Res (Bool × Bool × Nat × Nat)
  | [], acc => .ok acc
  | seq :: rest, (mid, last, len, cnt) => do
    let a ← seq.is_absolute
    let acc := if rest ≠ [] then (mid || a, last, len + seq.len, cnt + seq.label_count)
      else (mid, last && a, len + seq.len, cnt + seq.label_count)
    scan rest acc

/-- label_sequence.rs:138-143: offsets recomputed by walking the labels -/
def walk (data : List UInt8) : (n pos : Nat) → Res (List Nat)
  | 0, _ => .ok []
  | n + 1, pos => do
    let b ← idx data pos
    let r ← walk data n (pos + b.toNat + 1)
    pure (pos % 256 :: r)

/-- `concat_all` label_sequence.rs:92-146 -/
def concat_all (s : LabelSequence) (suffixes : List LabelSequence) : Res Name := do
  let abs ← s.is_absolute
  if abs then
    if suffixes = [] then pure ⟨s.data, s.offsets⟩ else .err
  else do
    let (mid, last, final_length, final_count) ← scan suffixes (false, true, s.len, s.label_count)
    ensure (mid = false ∧ last = true)
    ensure (final_length ≤ MAX_WIRE_LEN)
    ensure (final_count ≤ MAX_LABEL_COUNT)
    let data := s.data ++ suffixes.flatMap (·.data)
    let offsets ← walk data final_count 0
    pure ⟨data, offsets⟩

/-- `LabelSlice::from_label_sequence(self).label_count()` (label_sequence.rs:170-171, label_slice.rs:26-33, 68-70). For a sequence without
labels `0 - 1` and then `last_label - 0 + 1` overflow: a panic with overflow checks, and without them both wrap around, to `0`. -/
def sliceCount (m : Build) (s : LabelSequence) : Res Nat :=
  if s.label_count = 0 then match m with
    | .debug => .panic
    | .release => .ok 0
  else .ok s.label_count

/-- `Ord::cmp` label_sequence.rs:168-179, with `compare` (label_slice.rs:82-151) on the slices of the whole sequences; the last label of the
slice of a sequence without labels is never used, as the loop ends at once -/
def cmp (m : Build) (a b : LabelSequence) : Res Ordering := do
  let l1 ← a.sliceCount m
  let l2 ← b.sliceCount m
  let r ← LabelSlice.cmpLoop m false ⟨a.data, a.offsets, 0, a.label_count - 1⟩ ⟨b.data, b.offsets, 0, b.label_count - 1⟩
    ((l1 : Int) - (l2 : Int)) (min l1 l2) l1 l2 0
  pure (if r.order < 0 then .lt else if r.order > 0 then .gt else .eq)

/-- `Display` label_sequence.rs:183-187. For a sequence without labels `from_label_sequence` overflows: a panic with overflow checks; without
them the last label wraps to an index out of range, and `data` panics. -/
def to_string (s : LabelSequence) : Res (List UInt8) := do
  let sl ← LabelSlice.from_label_sequence s
  sl.to_string

/-- `FromStr` label_sequence.rs:190-196 -/
def from_str (text : List UInt8) : Res LabelSequence := do
  let (d, o) ← Name.string_parse text false
  pure ⟨d, o⟩

end LabelSequence

namespace Name

/-- `into_label_sequence` name.rs:329-344 -/
def into_label_sequence (n : Name) (first_label last_label : Nat) : Res LabelSequence := do
  let ol ← idx n.offsets last_label
  let b ← idx n.raw ol
  let last_label_len ← cadd8 b.toNat 1
  let data_length ← cadd8 ol last_label_len
  let (_, raw) ← LabelSequence.drain n.raw data_length n.raw.length
  let (_, offsets) ← LabelSequence.drain n.offsets (last_label + 1) n.offsets.length
  if first_label ≠ 0 then do
    let o ← idx offsets first_label
    let (_, raw) ← LabelSequence.drain raw 0 o
    let (_, offsets) ← LabelSequence.drain offsets 0 first_label
    let cur ← idx offsets 0
    let offsets ← LabelSequence.subAll cur offsets
    pure ⟨raw, offsets⟩
  else pure ⟨raw, offsets⟩

/-- `get_relation` name.rs:346-348 -/
def get_relation (m : Build) (a b : Name) : Res NameComparisonResult := do
  let sa ← LabelSlice.from_name a
  let sb ← LabelSlice.from_name b
  LabelSlice.compare m sa sb false

/-- lengths loop of `concat_all` (name.rs:354-357) -/
def sumLens : List Name → Nat × Nat → Res (Nat × Nat)
  | [], acc => .ok acc
  | n :: ns, (l, c) => do
    let a ← csub n.len 1
    let b ← csub n.label_count 1
    sumLens ns (l + a, c + b)

/-- copying the octets of the suffixes (name.rs:370-373): all but the last lose their root octet -/
def copyRaw : List Name → Res (List UInt8)
  | [] => .panic
  | [n] => .ok n.raw
  | n :: m :: ns => do
    let k ← csub n.len 1
    let a ← slice n.raw 0 k
    let r ← copyRaw (m :: ns)
    pure (a ++ r)

/-- `offsets[i] += last_offset` for the newly copied offsets (name.rs:381-383) -/
def addAll (x : Nat) : List Nat → Res (List Nat)
  | [] => .ok []
  | v :: vs => do
    let v' ← cadd8 v x
    let vs' ← addAll x vs
    pure (v' :: vs')

/-- offsets loop of `concat_all` (name.rs:378-385); `copied_len` always equals `offsets.len()`. -/
def copyOffsets : List Name → List Nat → Res (List Nat)
  | [], offs => .ok offs
  | n :: ns, offs => do
    let k ← csub offs.length 1
    let last ← idx offs k
    let new ← slice n.offsets 1 n.label_count
    let new ← addAll last new
    copyOffsets ns (offs ++ new)

/-- `concat_all` name.rs:350-388. `&suffixes[..suffix_count - 1]` (line 370) underflows for no
suffix: `copyRaw [] = panic`. -/
def concat_all (n : Name) (suffixes : List Name) : Res Name := do
  let (final_length, final_count) ← sumLens suffixes (n.len, n.label_count)
  ensure (final_length ≤ MAX_WIRE_LEN)
  ensure (final_count ≤ MAX_LABEL_COUNT)
  let k ← csub n.len 1
  let a ← slice n.raw 0 k
  let r ← copyRaw suffixes
  let offsets ← copyOffsets suffixes n.offsets
  pure ⟨a ++ r, offsets⟩

/-- name.rs:390-392 -/
def concat (n suffix : Name) : Res Name := concat_all n [suffix]

/-- loop of `reverse` (name.rs:403-410), `i` counting down from `i`. The argument is `i + 1`. -/
def revLoop (n : Name) : (i1 : Nat) → (raw : List UInt8) → (offs : List Nat) → (label_len : Nat) → Res Name
  | 0, raw, offs, label_len => .ok ⟨raw ++ [0], offs ++ [label_len % 256]⟩
  | i + 1, raw, offs, label_len => do
    let st ← idx n.offsets i
    let en ← idx n.offsets (i + 1)
    let d ← slice n.raw st en
    let dl ← csub en st
    revLoop n i (raw ++ d) (offs ++ [label_len % 256]) (label_len + dl)

/-- `reverse` name.rs:394-415. The `i8` loop counter is exact for at most 128 labels; beyond that the
cast would wrap, which the model does not represent (names have at most 128 labels). -/
def reverse (n : Name) : Res Name :=
  if n.label_count = 1 then .ok n
  else do
    let i1 ← csub n.label_count 1
    revLoop n i1 [] [] 0

/-- `split` name.rs:417-451 -/
def split (n : Name) (start_label label_count0 : Nat) : Res Name := do
  let max := n.label_count
  ensure (start_label < max)
  let label_count := if start_label + label_count0 > max then max - start_label else label_count0
  if start_label + label_count = n.label_count then do
    let first ← idx n.offsets start_label
    let offsets := n.offsets.drop start_label
    let start_pos ← idx offsets 0
    let _ ← csub n.len start_pos
    let raw ← slice n.raw start_pos n.raw.length
    let offs ← LabelSequence.subAll first (offsets.take label_count)
    pure ⟨raw, offs ++ offsets.drop label_count⟩
  else do
    let offsets ← slice n.offsets start_label (start_label + label_count + 1)
    let o0 ← idx offsets 0
    let oe ← idx offsets label_count
    let cap ← csub oe o0
    let _ ← cadd8 cap 1
    let raw ← slice n.raw o0 oe
    let first ← idx n.offsets start_label
    let offs ← LabelSequence.subAll first (offsets.take (label_count + 1))
    pure ⟨raw ++ [0], offs ++ offsets.drop (label_count + 1)⟩

/-- `parent` name.rs:453-455 -/
def parent (n : Name) (level : Nat) : Res Name := do
  let k ← csub n.label_count level
  split n level k

/-- inner loop of `as_lowercase` (name.rs:464-468) -/
def lowerInner : (label_len p : Nat) → List UInt8 → Res (Nat × List UInt8)
  | 0, p, raw => .ok (p, raw)
  | k + 1, p, raw => do
    let c ← idx raw p
    lowerInner k (p + 1) (raw.set p (lower_case c))

/-- outer loop of `as_lowercase` (name.rs:460-469) -/
def lowerOuter : (label_count p : Nat) → List UInt8 → Res (List UInt8)
  | 0, _, raw => .ok raw
  | k + 1, p, raw => do
    let l ← idx raw p
    let (p', raw') ← lowerInner l.toNat (p + 1) raw
    lowerOuter k p' raw'

/-- `as_lowercase` name.rs:457-470 -/
def as_lowercase (n : Name) : Res Name := do
  let raw ← lowerOuter n.label_count 0 n.raw
  pure ⟨raw, n.offsets⟩

/-- `strip_left` name.rs:472-490 -/
def strip_left (n : Name) (label_count : Nat) : Res Name := do
  assertR (label_count < n.label_count)
  if label_count = 0 then pure n
  else do
    let offsets := n.offsets.drop label_count
    let start_pos ← idx n.offsets label_count
    let offsets ← LabelSequence.subAll (start_pos % 256) offsets
    let raw ← slice n.raw start_pos n.raw.length
    pure ⟨raw, offsets⟩

/-- `into_ancestor` name.rs:492-507 -/
def into_ancestor (n : Name) (label_count : Nat) : Res Name := do
  assertR (label_count < n.label_count)
  if label_count = 0 then pure n
  else do
    let start_pos ← idx n.offsets label_count
    let offsets ← slice n.offsets label_count n.offsets.length
    let offsets ← LabelSequence.subAll (start_pos % 256) offsets
    let raw ← slice n.raw start_pos n.raw.length
    pure ⟨raw, offsets⟩

/-- `strip_right` name.rs:509-526 -/
def strip_right (n : Name) (label_count : Nat) : Res Name := do
  assertR (label_count < n.label_count)
  if label_count = 0 then pure n
  else do
    let new_count := n.label_count - label_count
    let end_label ← csub new_count 1
    let end_pos ← idx n.offsets end_label
    let raw ← slice n.raw 0 (end_pos + 1)
    let _ ← idx raw end_pos
    let offsets ← slice n.offsets 0 (end_label + 1)
    pure ⟨raw.set end_pos 0, offsets⟩

/-- `into_child` name.rs:528-542 (`truncate` never panics) -/
def into_child (n : Name) (label_count : Nat) : Res Name := do
  assertR (label_count < n.label_count)
  if label_count = 0 then pure n
  else do
    let new_count := n.label_count - label_count
    let end_label ← csub new_count 1
    let end_pos ← idx n.offsets end_label
    let raw := n.raw.take (end_pos + 1)
    let _ ← idx raw end_pos
    pure ⟨raw.set end_pos 0, n.offsets.take new_count⟩

/-- loop of `is_subdomain` (name.rs:551-559) -/
def subLoop (a p : List UInt8) : (j i : Nat) → Res Bool
  | 0, _ => .ok true
  | j + 1, i => do
    let x ← idx p (j + 1)
    let y ← idx a i
    if lower_case x ≠ lower_case y then pure false
    else do
      let i ← csub i 1
      subLoop a p j i

/-- `is_subdomain` name.rs:544-561 -/
def is_subdomain (n parent : Name) : Res Bool :=
  if n.len < parent.len ∨ n.label_count < parent.label_count then .ok false
  else do
    let i ← csub n.len 1
    let j ← csub parent.len 1
    subLoop n.raw parent.raw j i

/-- `is_wildcard` name.rs:563-569 -/
def is_wildcard (n : Name) : Res Bool :=
  if n.raw.length < 3 ∨ n.offsets.length < 2 then .ok false
  else do
    let o ← idx n.offsets 1
    if o ≠ 2 then pure false
    else do
      let a ← idx n.raw 0
      let b ← idx n.raw 1
      pure (a == 1 && b == 42)

/-- `is_root` name.rs:572-574 -/
def is_root (n : Name) : Bool := n.raw.length == 1 && n.raw[0]? == some 0

/-- `Display` name.rs:600-604 -/
def to_string (n : Name) : Res (List UInt8) := do
  let s ← LabelSlice.from_name n
  s.to_string

/-- inner loop of `eq` (name.rs:622-630): position after the label, or `none` on a mismatch -/
def eqInner (a b : List UInt8) : (count pos : Nat) → Res (Option Nat)
  | 0, pos => .ok (some pos)
  | k + 1, pos => do
    let x ← idx a pos
    let y ← idx b pos
    if lower_case x ≠ lower_case y then pure none else eqInner a b k (pos + 1)

/-- outer loop of `eq` (name.rs:614-632) -/
def eqLoop (a b : List UInt8) : (l pos : Nat) → Res Bool
  | 0, _ => .ok true
  | l + 1, pos => do
    let x ← idx a pos
    let y ← idx b pos
    if x ≠ y then pure false
    else do
      match ← eqInner a b x.toNat (pos + 1) with
      | none => pure false
      | some pos => eqLoop a b l pos

/-- `PartialEq::eq` name.rs:607-635 -/
def eq (a b : Name) : Res Bool :=
  if a.len ≠ b.len ∨ a.label_count ≠ b.label_count then .ok false
  else eqLoop a.raw b.raw a.label_count 0

/-- `Ord::cmp` name.rs:647-650 -/
def cmp (m : Build) (a b : Name) : Res Ordering := do
  let r ← get_relation m a b
  pure (if r.order < 0 then .lt else if r.order = 0 then .eq else .gt)

/-- `Hash::hash` name.rs:653-659: the octets fed to the hasher, in order -/
def hashFeed (n : Name) : List UInt8 := n.raw.map lower_case

end Name
end R53
