import Verif.Spec.Text
import Verif.Spec.Message
/-!
# Specification of what a printed message shows
-/
namespace R53

/-- the question has a plain name and a class and type with a text of their own -/
def Question.Printable (q : Question) : Prop :=
  PlainName q.name ∧ (∀ v, q.class_ ≠ .Unknown v) ∧ (∀ v, q.typ ≠ .Unknown v) ∧ q.typ ≠ .CERT

/-- the sets of a section other than OPT -/
def Section.visible (s : Section) : List RRset := (s.getD []).filter fun r => decide (r.typ ≠ .OPT)

/-- its records -/
def Section.visibleRecords (s : Section) : List RRset := (Section.visible s).flatMap RRset.records

/-- a message all of whose names, codes and data have a text of their own (as in C70), whose header has only the seven flags set
and counts the records of every section that has any -/
structure Response.Printable (m : Response) : Prop where
  question : m.question.Printable
  sections : ∀ t, ∀ s ∈ Section.visible (m.section_ t), s.Printable
  flag : m.header.flag &&& 0x87b0 = m.header.flag
  an : m.header.an_count = 0 → Section.visible m.answer = []
  ns : m.header.ns_count = 0 → Section.visible m.authority = []
  ar : m.header.ar_count = 0 → Section.visible m.additional = []

/-! What is needed to tell things apart by their texts: numbers of types and classes have a name of their own.  Names and data may have
any octets. -/

/-- the type prints as no other: it has a name, and is not CERT, which prints as URI -/
def RRType.OwnText (t : RRType) : Prop := (∀ v, t ≠ .Unknown v) ∧ t ≠ .CERT

/-- a type inside the data (RRSIG) prints as no other -/
def FieldVal.Coded : FieldVal → Prop
  | .rrtype t => t.OwnText
  | _ => True

/-- a set of at least one record of valid names and data of its type, whose class has a name -/
structure RRset.Coded (s : RRset) : Prop where
  typed : s.Typed
  class_ : ∀ v, s.class_ ≠ .Unknown v
  some_ : s.rdatas ≠ []
  data : ∀ rd ∈ s.rdatas, rd.kind = s.typ ∧ ∀ f ∈ rd.fields, f.Coded

/-- a question of a valid name whose class and type print as no other -/
structure Question.Coded (q : Question) : Prop where
  name : ∃ ls, ValidName ls ∧ q.name = Name.ofLabels ls
  class_ : ∀ v, q.class_ ≠ .Unknown v
  typ : q.typ.OwnText

/-- a message of such a question and such sets, whose header has only the seven flags set and counts the records of every section that
has any -/
structure Response.Coded (m : Response) : Prop where
  question : m.question.Coded
  sections : ∀ t, ∀ s ∈ Section.visible (m.section_ t), s.Coded
  flag : m.header.flag &&& 0x87b0 = m.header.flag
  an : m.header.an_count = 0 → Section.visible m.answer = []
  ns : m.header.ns_count = 0 → Section.visible m.authority = []
  ar : m.header.ar_count = 0 → Section.visible m.additional = []

/-! What a text shows, exactly: the number of a class or type without a name is not shown, and CERT is shown as URI. -/

/-- the class without the number that is not shown -/
def RRClass.blur : RRClass → RRClass
  | .Unknown _ => .Unknown 0
  | c => c

/-- the type without the number that is not shown, and URI for CERT -/
def RRType.blur : RRType → RRType
  | .Unknown _ => .Unknown 0
  | .CERT => .URI
  | t => t

/-- the same of a type inside the data -/
def FieldVal.blur : FieldVal → FieldVal
  | .rrtype t => .rrtype t.blur
  | f => f

/-- the same of the data: its kind is not blurred -/
def RData.blur (d : RData) : RData := { d with fields := d.fields.map FieldVal.blur }

/-- the same of a set: its type is not blurred, the data tell CERT from URI -/
def RRset.blur (s : RRset) : RRset := { s with class_ := s.class_.blur, rdatas := s.rdatas.map RData.blur }

/-- the same of a question -/
def Question.blur (q : Question) : Question := { q with class_ := q.class_.blur, typ := q.typ.blur }

/-- the header without the bits that are not one of the seven flags -/
def Header.blur (h : Header) : Header := { h with flag := h.flag &&& 0x87b0 }

/-- a set of at least one record of valid names and data of its type -/
structure RRset.Solid (s : RRset) : Prop where
  typed : s.Typed
  some_ : s.rdatas ≠ []
  data : ∀ rd ∈ s.rdatas, rd.kind = s.typ

/-- a message of a question of a valid name and such sets -/
structure Response.Solid (m : Response) : Prop where
  question : ∃ ls, ValidName ls ∧ m.question.name = Name.ofLabels ls
  sections : ∀ t, ∀ s ∈ Section.visible (m.section_ t), s.Solid

/-- the number of records the header states for a section -/
def Header.counted (h : Header) : SectionType → UInt16
  | .Answer => h.an_count
  | .Authority => h.ns_count
  | .Additional => h.ar_count

/-- what the text of a message shows is the same: the header but for bits that are no flags, the question, the records other than OPT of every
section the header counts records in, and the version, DO flag and UDP size of EDNS -/
structure SameShown (m k : Response) : Prop where
  header : m.header.blur = k.header.blur
  question : m.question.blur = k.question.blur
  sections : ∀ t, m.header.counted t > 0 →
    (Section.visibleRecords (m.section_ t)).map RRset.blur = (Section.visibleRecords (k.section_ t)).map RRset.blur
  edns : ∃ e f, m.get_edns = .ok e ∧ k.get_edns = .ok f ∧
    e.map (fun e => (e.version, e.dnssec_aware, e.udp_size)) = f.map (fun e => (e.version, e.dnssec_aware, e.udp_size))

end R53
