import Verif.Spec.Name
import Verif.Model.Rdata
/-!
# What it means for record data to fit the wire format

The types of the fields are those of the structs in rdatas.rs; the limits are the RFC 1035 ones: a character-string has at
most 255 octets, an address its 4 or 16 octets. A type field is written as its number, so it must be the type the decoder
gives to that number (true of every named type and of `Unknown(n)` for unassigned `n`).
-/
namespace R53

/-- the type of a field value is that of the codec, and the value fits its wire width -/
def FieldFits : Codec → FieldVal → Prop
  | .name, .name n => ∃ ls, ValidName ls ∧ n = Name.ofLabels ls
  | .ipv4, .ip o => o.length = 4
  | .ipv6, .ip o => o.length = 16
  | .u8, .u8 _ => True
  | .u16, .u16 _ => True
  | .u32, .u32 _ => True
  | .rrtype, .rrtype t => RRType.new t.as_u16 = t
  | .text, .text ds => ∀ d ∈ ds, d.length ≤ 255
  | .byte_binary, .bytes d => d.length ≤ 255
  | .binary, .bytes _ => True
  | _, _ => False

/-- fields in order -/
def FieldsFit : List (Codec × Disp) → List FieldVal → Prop
  | [], [] => True
  | c :: cs, v :: vs => FieldFits c.1 v ∧ FieldsFit cs vs
  | _, _ => False

/-- the record data is one of the supported types, with the fields of that type, all fitting -/
def RData.Fits (rd : RData) : Prop := ∃ cs, schema rd.kind = some cs ∧ FieldsFit cs rd.fields

end R53

namespace R53

/-- octets of a field on the wire when names are not compressed -/
def FieldVal.size : Codec → FieldVal → Nat
  | _, .name n => n.raw.length
  | _, .ip o => o.length
  | _, .u8 _ => 1
  | _, .u16 _ => 2
  | _, .u32 _ => 4
  | _, .rrtype _ => 2
  | _, .text ds => (ds.map fun d => d.length + 1).sum
  | .binary, .bytes d => d.length
  | _, .bytes d => d.length + 1

def fieldsSize : List (Codec × Disp) → List FieldVal → Nat
  | c :: cs, v :: vs => v.size c.1 + fieldsSize cs vs
  | _, _ => 0

/-- uncompressed size of the data -/
def RData.size (rd : RData) : Nat := match schema rd.kind with | none => 0 | some cs => fieldsSize cs rd.fields

/-- the data fits the 16-bit RDLENGTH, and is not empty -/
def RData.SizeOK (rd : RData) : Prop := 1 ≤ rd.size ∧ rd.size ≤ 65535

end R53
