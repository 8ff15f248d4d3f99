import Verif.Model.Codes
/-!
# Model of `header.rs` and `question.rs`
-/
namespace R53

/-- header.rs:9 -/
def HEADERFLAG_MASK : UInt16 := 0x87b0
/-- header.rs:10 -/
def OPCODE_MASK : UInt16 := 0x7800
/-- header.rs:11 -/
def OPCODE_SHIFT : UInt16 := 11
/-- header.rs:12 -/
def RCODE_MASK : UInt16 := 0x000f

/-- `Header` header.rs:14-24 -/
structure Header where
  id : UInt16
  flag : UInt16
  opcode : Opcode
  rcode : Rcode
  qd_count : UInt16
  an_count : UInt16
  ns_count : UInt16
  ar_count : UInt16
deriving DecidableEq, Repr

namespace Header

/-- header.rs:27-44 -/
def from_wire : St InBuf Header := do
  let id ← InBuf.read_u16
  let flag ← InBuf.read_u16
  let qd_count ← InBuf.read_u16
  let an_count ← InBuf.read_u16
  let ns_count ← InBuf.read_u16
  let ar_count ← InBuf.read_u16
  pure ⟨id, flag &&& HEADERFLAG_MASK, Opcode.new ((flag &&& OPCODE_MASK) >>> OPCODE_SHIFT).toUInt8,
    Rcode.new (flag &&& RCODE_MASK).toUInt8, qd_count, an_count, ns_count, ar_count⟩

/-- header.rs:46-53 (opcode and rcode are kept) -/
def clear (h : Header) : Header :=
  { h with id := 0, flag := 0, qd_count := 0, an_count := 0, ns_count := 0, ar_count := 0 }

/-- header.rs:55-57 -/
def setted_flags (h : Header) : List HeaderFlag := HeaderFlag.setted_flags h.flag
/-- header.rs:59-61 -/
def is_flag_set (h : Header) (f : HeaderFlag) : Bool := HeaderFlag.is_flag_set h.flag f
/-- header.rs:63-70 -/
def set_flag (h : Header) (f : HeaderFlag) (set : Bool) : Header :=
  if set then { h with flag := HeaderFlag.set_flag h.flag f } else { h with flag := HeaderFlag.clear_flag h.flag f }

/-- header.rs:81-86 -/
def header_flag (h : Header) : UInt16 :=
  (((h.opcode.to_u8.toUInt16 <<< OPCODE_SHIFT) &&& OPCODE_MASK) ||| (h.rcode.to_u8.toUInt16 &&& RCODE_MASK)) |||
    (h.flag &&& HEADERFLAG_MASK)

/-- header.rs:72-79 -/
def to_wire (h : Header) : St Render Unit := do
  Render.write_u16 h.id
  Render.write_u16 h.header_flag
  Render.write_u16 h.qd_count
  Render.write_u16 h.an_count
  Render.write_u16 h.ns_count
  Render.write_u16 h.ar_count

/-- `Default for Header` header.rs:90-101; `id` is the random number -/
def default (id : UInt16) : Header := ⟨id, 0, .Query, .NoError, 1, 0, 0, 0⟩

end Header

/-- `Question` question.rs:9-14 -/
structure Question where
  name : Name
  typ : RRType
  class_ : RRClass
deriving DecidableEq, Repr

namespace Question

/-- question.rs:17-23 -/
def new (name : Name) (typ : RRType) : Question := ⟨name, typ, .IN⟩

/-- question.rs:25-30 -/
def from_wire : St InBuf Question := do
  let name ← Name.from_wire
  let typ ← RRType.from_wire
  let class_ ← RRClass.from_wire
  pure ⟨name, typ, class_⟩

/-- question.rs:32-36; `Name::to_wire` (name.rs) is `write_name(self, true)` -/
def to_wire (q : Question) : St Render Unit := do
  Render.write_name q.name true
  q.typ.to_wire
  q.class_.to_wire

/-- `==` on questions question.rs:9 (derived; names compare by `Name::eq`) -/
def eq (a b : Question) : Res Bool := do
  let n ← Name.eq a.name b.name
  pure (n && decide (a.typ = b.typ) && decide (a.class_ = b.class_))

end Question
end R53
