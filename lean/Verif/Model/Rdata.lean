import Verif.Model.Header
/-!
# Model of `rdata.rs`, `rdatas.rs`, `rdatafield/wire_decode.rs`, `rdatafield/wire_encode.rs` and of the code generated by
`rdata-derive/src/expand.rs`

The derive macro turns every struct of `rdatas.rs` into a sequence of field codecs; the model keeps that sequence as data
(`schema`) and interprets it. A record data value is its variant (named by the `RRType` that `RData::from_wire` maps to it)
and the list of its field values in declaration order. `u16` lengths are `Nat`; the subtractions of the source are guarded
by the tests before them.
-/
namespace R53

/-- `codec = ".."` of a field attribute (rdatas.rs:11-210, rdata-derive/src/parser.rs:62-73) -/
inductive Codec where
  | name | ipv4 | ipv6 | u8 | u16 | u32 | rrtype | text | byte_binary | binary
deriving DecidableEq, Repr

/-- `display = ".."` of a field attribute (rdatas.rs:11-210, rdata-derive/src/parser.rs:75-85) -/
inductive Disp where
  | name | ipv4 | ipv6 | u8 | u16 | u32 | rrtype | text | string | binary | base64 | timestamp
deriving DecidableEq, Repr

/-- the value of a field; an address is its octets (the field types of rdatas.rs:11-210) -/
inductive FieldVal where
  | name (n : Name)
  | ip (octets : List UInt8)
  | u8 (v : UInt8)
  | u16 (v : UInt16)
  | u32 (v : UInt32)
  | rrtype (t : RRType)
  | text (ds : List (List UInt8))
  | bytes (d : List UInt8)
deriving DecidableEq, Repr

/-- rdatas.rs:11-233, the fields of each struct in order, keyed by the RR type as in rdata.rs:40-41, 86-108.
(`parser.rs` only collects the attributes.) -/
def schema : RRType → Option (List (Codec × Disp))
  | .A => some [(.ipv4, .ipv4)]
  | .AAAA => some [(.ipv6, .ipv6)]
  | .SOA => some [(.name, .name), (.name, .name), (.u32, .u32), (.u32, .u32), (.u32, .u32), (.u32, .u32), (.u32, .u32)]
  | .SRV => some [(.u16, .u16), (.u16, .u16), (.u16, .u16), (.name, .name)]
  | .MX => some [(.u16, .u16), (.name, .name)]
  | .TXT => some [(.text, .text)]
  | .RP => some [(.name, .name), (.name, .name)]
  | .NS => some [(.name, .name)]
  | .PTR => some [(.name, .name)]
  | .CNAME => some [(.name, .name)]
  | .NAPTR => some [(.u16, .u16), (.u16, .u16), (.byte_binary, .string), (.byte_binary, .string), (.byte_binary, .string), (.name, .name)]
  | .OPT => some [(.binary, .binary)]
  | .DNAME => some [(.name, .name)]
  | .DS => some [(.u16, .u16), (.u8, .u8), (.u8, .u8), (.binary, .binary)]
  | .RRSIG => some [(.rrtype, .rrtype), (.u8, .u8), (.u8, .u8), (.u32, .u32), (.u32, .timestamp), (.u32, .timestamp),
      (.u16, .u16), (.name, .name), (.binary, .base64)]
  | .NSEC => some [(.name, .name), (.binary, .binary)]
  | .DNSKEY => some [(.u16, .u16), (.u8, .u8), (.u8, .u8), (.binary, .base64)]
  | .NSEC3 => some [(.u8, .u8), (.u8, .u8), (.u16, .u16), (.byte_binary, .binary), (.byte_binary, .binary), (.binary, .binary)]
  | .NSEC3PARAM => some [(.u8, .u8), (.u8, .u8), (.u16, .u16), (.byte_binary, .binary)]
  | .CAA => some [(.u8, .u8), (.byte_binary, .string), (.binary, .string)]
  | .CERT => some [(.u16, .u16), (.u16, .u16), (.u8, .u8), (.binary, .base64)]
  | .URI => some [(.u16, .u16), (.u16, .u16), (.binary, .string)]
  | _ => none

/-- `RData` rdata.rs:8-32: the variant and the fields of its struct -/
structure RData where
  kind : RRType
  fields : List FieldVal
deriving DecidableEq, Repr

namespace Field

/-- wire_decode.rs:7-21; `(buf.position() - p) as u16` -/
def name_from_wire (len : Nat) : St InBuf (FieldVal × Nat) := do
  let b ← St.get
  let n ← Name.from_wire
  let b' ← St.get
  let d ← St.lift (csub b'.pos b.pos)
  St.lift (ensure (d % 65536 ≤ len))
  pure (.name n, len - d % 65536)

/-- wire_decode.rs:23-29; the four indices of `bytes` are in range because `read_bytes(4)` gave four -/
def ipv4_from_wire (len : Nat) : St InBuf (FieldVal × Nat) := do
  St.lift (ensure (4 ≤ len))
  let bytes ← InBuf.read_bytes 4
  let a ← St.lift (idx bytes 0)
  let b ← St.lift (idx bytes 1)
  let c ← St.lift (idx bytes 2)
  let d ← St.lift (idx bytes 3)
  pure (.ip [a, b, c, d], len - 4)

/-- wire_decode.rs:31-39; `copy_from_slice` panics unless the lengths agree -/
def ipv6_from_wire (len : Nat) : St InBuf (FieldVal × Nat) := do
  St.lift (ensure (16 ≤ len))
  let bytes ← InBuf.read_bytes 16
  St.lift (assertR (bytes.length = 16))
  pure (.ip bytes, len - 16)

/-- wire_decode.rs:41-44 -/
def u8_from_wire (len : Nat) : St InBuf (FieldVal × Nat) := do
  St.lift (ensure (1 ≤ len))
  let v ← InBuf.read_u8
  pure (.u8 v, len - 1)
/-- wire_decode.rs:46-49 -/
def u16_from_wire (len : Nat) : St InBuf (FieldVal × Nat) := do
  St.lift (ensure (2 ≤ len))
  let v ← InBuf.read_u16
  pure (.u16 v, len - 2)
/-- wire_decode.rs:51-54 -/
def rrtype_from_wire (len : Nat) : St InBuf (FieldVal × Nat) := do
  St.lift (ensure (2 ≤ len))
  let v ← InBuf.read_u16
  pure (.rrtype (RRType.new v), len - 2)
/-- wire_decode.rs:56-59 -/
def u32_from_wire (len : Nat) : St InBuf (FieldVal × Nat) := do
  St.lift (ensure (4 ≤ len))
  let v ← InBuf.read_u32
  pure (.u32 v, len - 4)

/-- wire_decode.rs:72-77 -/
def bytes_from_wire (len : Nat) : St InBuf (List UInt8 × Nat) := do
  let dl ← InBuf.read_u8
  St.lift (ensure (dl.toNat < len))
  let data ← InBuf.read_bytes dl.toNat
  pure (data, len - dl.toNat - 1)

/-- the loop of `text_from_wire` wire_decode.rs:61-70; every iteration lowers `left_len`, so `fuel` = its first value is
enough (running out would be an endless loop, `panic`) -/
def textLoop : (fuel left : Nat) → St InBuf (List (List UInt8))
  | fuel, left =>
    if left = 0 then pure []
    else match fuel with
      | 0 => St.boom
      | fuel + 1 => do
        let (txt, left') ← bytes_from_wire left
        let rest ← textLoop fuel left'
        pure (txt :: rest)

/-- wire_decode.rs:7-82 -/
def from_wire : Codec → Nat → St InBuf (FieldVal × Nat)
  | .name, len => name_from_wire len
  | .ipv4, len => ipv4_from_wire len
  | .ipv6, len => ipv6_from_wire len
  | .u8, len => u8_from_wire len
  | .u16, len => u16_from_wire len
  | .u32, len => u32_from_wire len
  | .rrtype, len => rrtype_from_wire len
  | .text, len => do
    let ds ← textLoop len len
    pure (.text ds, 0)
  | .byte_binary, len => do
    let (d, l) ← bytes_from_wire len
    pure (.bytes d, l)
  | .binary, len => do
    let d ← InBuf.read_bytes len
    pure (.bytes d, 0)

/-- `for x in .. { render.write_u8(x)? }` wire_encode.rs:16-28 -/
def octets_to_wire : List UInt8 → St Render Unit
  | [] => pure ()
  | x :: xs => do
    Render.write_u8 x
    octets_to_wire xs

/-- wire_encode.rs:53-56; `data.len() as u8` -/
def bytes_to_wire (d : List UInt8) : St Render Unit := do
  Render.write_u8 (UInt8.ofNat d.length)
  Render.write_bytes d

/-- wire_encode.rs:46-51 -/
def text_to_wire : List (List UInt8) → St Render Unit
  | [] => pure ()
  | d :: ds => do
    bytes_to_wire d
    text_to_wire ds

/-- wire_encode.rs:8-60; a value of another type than the codec's is ruled out by the Rust types (`boom` here) -/
def to_wire : Codec → FieldVal → St Render Unit
  | .name, .name n => Render.write_name n true
  | .ipv4, .ip o => octets_to_wire o
  | .ipv6, .ip o => octets_to_wire o
  | .u8, .u8 v => Render.write_u8 v
  | .u16, .u16 v => Render.write_u16 v
  | .u32, .u32 v => Render.write_u32 v
  | .rrtype, .rrtype t => Render.write_u16 t.as_u16
  | .text, .text ds => text_to_wire ds
  | .byte_binary, .bytes d => bytes_to_wire d
  | .binary, .bytes d => Render.write_bytes d
  | _, _ => St.boom

/-- the `let (field, len) = codec_from_wire(buf, len)?;` lines, expand.rs:26-33 -/
def allFrom : List (Codec × Disp) → Nat → St InBuf (List FieldVal × Nat)
  | [], len => pure ([], len)
  | c :: cs, len => do
    let (v, len) ← from_wire c.1 len
    let (vs, len) ← allFrom cs len
    pure (v :: vs, len)

/-- the `codec_to_wire(render, self.field)?;` lines, expand.rs:53-77 -/
def allTo : List (Codec × Disp) → List FieldVal → St Render Unit
  | [], _ => pure ()
  | _ :: _, [] => St.boom
  | c :: cs, v :: vs => do
    to_wire c.1 v
    allTo cs vs

end Field

namespace RData

/-- the derived `from_wire` of one struct, expand.rs:43-49 -/
def structFrom (cs : List (Codec × Disp)) (len : Nat) : St InBuf (List FieldVal) := do
  let (vs, left) ← Field.allFrom cs len
  St.lift (ensure (left = 0))
  pure vs

/-- rdata.rs:37-49 -/
def from_wire (typ : RRType) (len : UInt16) : St InBuf RData := do
  let b ← St.get
  match schema typ with
  | none => St.fail
  | some cs => do
    let vs ← structFrom cs len.toNat
    let b' ← St.get
    let d ← St.lift (csub b'.pos b.pos)
    if d ≠ len.toNat then St.fail else pure ⟨typ, vs⟩

/-- rdata.rs:65-71 -/
def to_wire (rd : RData) : St Render Unit :=
  match schema rd.kind with
  | none => St.boom
  | some cs => Field.allTo cs rd.fields

end RData
end R53
