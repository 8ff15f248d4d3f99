import Verif.Spec.NameText
import Verif.Spec.Rdata
import Verif.Model.Text
/-!
# Specification of the presentation format (RFC 1035 §5.1)
-/
namespace R53

/-- white space between words -/
def Blank (c : UInt8) : Prop := c = 32 ∨ c = 9 ∨ c = 10 ∨ c = 12 ∨ c = 13
instance (c : UInt8) : Decidable (Blank c) := by unfold Blank; infer_instance

/-- split at every blank; the pieces may be empty -/
def pieces : List UInt8 → List (List UInt8)
  | [] => [[]]
  | c :: t =>
    if Blank c then [] :: pieces t
    else match pieces t with
      | x :: xs => (c :: x) :: xs
      | [] => [[c]]

/-- the blank separated words of a text, in order -/
def words (t : List UInt8) : List (List UInt8) := (pieces t).filter (· ≠ [])

/-- `Quoted body d`: what stands between the quotes denotes the octets `d`: an octet other than `"` and `\` stands for
itself, `\c` with `c` not a digit for `c`, `\DDD` for the octet with that decimal number -/
inductive Quoted : List UInt8 → List UInt8 → Prop
  | nil : Quoted [] []
  | plain {c : UInt8} {t d : List UInt8} : c ≠ 34 → c ≠ 92 → Quoted t d → Quoted (c :: t) (c :: d)
  | escaped {c : UInt8} {t d : List UInt8} : ¬ (48 ≤ c ∧ c ≤ 57) → Quoted t d → Quoted (92 :: c :: t) (c :: d)
  | number {x y z : Nat} {t d : List UInt8} : x ≤ 9 → y ≤ 9 → z ≤ 9 → 100 * x + 10 * y + z < 256 → Quoted t d →
      Quoted (92 :: UInt8.ofNat (48 + x) :: UInt8.ofNat (48 + y) :: UInt8.ofNat (48 + z) :: t)
        (UInt8.ofNat (100 * x + 10 * y + z) :: d)

/-- the text not yet read -/
def StrBuf.left (b : StrBuf) : List UInt8 := b.raw.drop b.pos

/-- `s` starts with blanks and one quoted character-string denoting `d`, 1 to 255 octets; `rest` follows -/
def CharStringThen (s d rest : List UInt8) : Prop :=
  ∃ blanks body, s = blanks ++ [34] ++ body ++ [34] ++ rest ∧ (∀ c ∈ blanks, Blank c) ∧ Quoted body d ∧ 1 ≤ d.length ∧ d.length ≤ 255

/-- `s` consists of the quoted character-strings `ds`, at least one, with blanks before them -/
inductive CharStrings : List UInt8 → List (List UInt8) → Prop
  | one {s d : List UInt8} : CharStringThen s d [] → CharStrings s [d]
  | more {s d rest : List UInt8} {ds : List (List UInt8)} : CharStringThen s d rest → CharStrings rest ds → CharStrings s (d :: ds)

/-- visible ASCII without spaces, not empty -/
def Word (t : List UInt8) : Prop := t ≠ [] ∧ ∀ c ∈ t, 33 ≤ c ∧ c < 127

/-- what is assumed of the address texts of `std::net` and of the crate `base64`: they are words and read back -/
structure Ext.Laws (x : Ext) : Prop where
  v4 : ∀ o : List UInt8, o.length = 4 → Word (x.showV4 o) ∧ x.parseV4 (x.showV4 o) = some o
  v6 : ∀ o : List UInt8, o.length = 16 → Word (x.showV6 o) ∧ x.parseV6 (x.showV6 o) = some o
  b64 : ∀ d : List UInt8, d ≠ [] → Word (x.encode64 d) ∧ x.decode64 (x.encode64 d) = some d

/-- blanks between two words: at least one -/
def Gap (w : List UInt8) : Prop := w ≠ [] ∧ ∀ c ∈ w, Blank c

/-- the name has only octets that print as themselves -/
def PlainName (n : Name) : Prop := ∃ ls, ValidName ls ∧ n = Name.ofLabels ls ∧ ∀ l ∈ ls, ∀ c ∈ l, Plain c

/-- the field has the type of its display kind and a text that denotes it: names of plain octets, named types other than
CERT (printed URI), no empty character-string, text or octet string, addresses of the right size -/
def FieldVal.Printable : Disp → FieldVal → Prop
  | .name, .name n => PlainName n
  | .ipv4, .ip o => o.length = 4
  | .ipv6, .ip o => o.length = 16
  | .u8, .u8 _ => True
  | .u16, .u16 _ => True
  | .u32, .u32 _ => True
  | .rrtype, .rrtype t => (∀ v, t ≠ .Unknown v) ∧ t ≠ .CERT
  | .text, .text ds => ds ≠ [] ∧ ∀ d ∈ ds, d ≠ [] ∧ d.length ≤ 255
  | .timestamp, .u32 _ => True
  | .string, .bytes d => d ≠ [] ∧ d.length ≤ 255
  | .binary, .bytes d => d ≠ []
  | .base64, .bytes d => d ≠ []
  | _, _ => False

def FieldsPrintable : List (Codec × Disp) → List FieldVal → Prop
  | [], [] => True
  | c :: cs, v :: vs => v.Printable c.2 ∧ FieldsPrintable cs vs
  | _, _ => False

/-- the data has the fields of its type, all printable -/
def RData.Printable (rd : RData) : Prop := ∃ cs, schema rd.kind = some cs ∧ FieldsPrintable cs rd.fields

/-- a set of at least one record of one type other than CERT, with a named class, a plain owner name and printable data -/
def RRset.Printable (r : RRset) : Prop :=
  PlainName r.name ∧ (∀ v, r.class_ ≠ .Unknown v) ∧ r.typ ≠ .CERT ∧ r.rdatas ≠ [] ∧
  ∀ rd ∈ r.rdatas, rd.kind = r.typ ∧ rd.Printable

/-- the records `qs` follow `q` in one set: same type, and not OPT if there are any -/
def OneSet (q : RRset) (qs : List RRset) : Prop := (∀ p ∈ qs, p.typ = q.typ) ∧ (qs ≠ [] → q.typ ≠ .OPT)

/-- what is assumed of the address parsers of `std::net`: an address has 4 or 16 octets -/
def Ext.Sized (x : Ext) : Prop :=
  (∀ s o, x.parseV4 s = some o → o.length = 4) ∧ ∀ s o, x.parseV6 s = some o → o.length = 16

/-- the two limits of the wire format that the parsers do not enforce: a name has at most 255 octets, and what is written behind one
length octet as well -/
def FieldVal.Short : Codec → FieldVal → Prop
  | _, .name n => n.raw.length ≤ 255
  | .byte_binary, .bytes d => d.length ≤ 255
  | _, _ => True

def RData.Short (rd : RData) : Prop := ∀ cs, schema rd.kind = some cs → ∀ p ∈ cs.zip rd.fields, p.2.Short p.1.1

def RRset.Short (r : RRset) : Prop := r.name.raw.length ≤ 255 ∧ ∀ rd ∈ r.rdatas, rd.Short

/-- the octets of a text of the given characters in UTF-8, by the encoder of Lean's library: a Rust `&str` is such a text -/
def utf8Of (cs : List Char) : List UInt8 := cs.flatMap String.utf8EncodeChar

/-- a line of at most 510 octets of UTF-8 without backslash -/
def PlainLine (s : List UInt8) : Prop := isUtf8 s = true ∧ s.length ≤ 510 ∧ ∀ c ∈ s, c ≠ 92

/-- the calls of a `StringBuffer` -/
inductive TextOp where
  | next
  | left
  | charString
  | text
deriving DecidableEq

/-- what a call answers; `next` and `left` answer at most one text -/
def TextOp.call : TextOp → St StrBuf (List (List UInt8))
  | .next => do pure (← StrBuf.read_str).toList
  | .left => do pure (← StrBuf.read_left).toList
  | .charString => do pure [← StrBuf.read_char_string]
  | .text => StrBuf.read_text

/-- the answers to a history of calls on one buffer, which goes on after an `Err` -/
def TextOp.run : List TextOp → StrBuf → List (Res (List (List UInt8)))
  | [], _ => []
  | op :: ops, b => (op.call b).1 :: TextOp.run ops (op.call b).2

end R53
