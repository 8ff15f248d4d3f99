import Verif.Spec.RRset
import Verif.Model.Message
import Batteries.Data.List.Basic
/-!
# What a well-formed message is

A record set is a list of records with the owner, type, class and TTL of the set, one for each data; a set without data (the
EDNS pseudo-record) is one record.
-/
namespace R53

/-- the records of a set -/
def RRset.records (s : RRset) : List RRset :=
  if s.rdatas = [] then [s] else s.rdatas.map fun rd => { s with rdatas := [rd] }

/-- the records of a section -/
def Section.records (s : Section) : List RRset :=
  match s with
  | none => []
  | some sets => sets.flatMap RRset.records

/-- a set that can be written and read: valid owner, assigned or unassigned but not mislabelled type and class, data of the
set's type that fits; only OPT may come without data -/
structure RRset.Fits (s : RRset) : Prop where
  name : ∃ ls, ValidName ls ∧ s.name = Name.ofLabels ls
  typ : RRType.new s.typ.as_u16 = s.typ
  class_ : RRClass.new s.class_.to_u16 = s.class_
  data : ∀ rd ∈ s.rdatas, rd.kind = s.typ ∧ rd.Fits ∧ rd.SizeOK
  empty : s.rdatas = [] → s.typ = .OPT

/-- no two neighbours with the same owner and type (the decoder joins such) -/
def NoNeighbours : List RRset → Prop
  | [] => True
  | [_] => True
  | s :: t :: rest => ¬ s.SameOwner t ∧ NoNeighbours (t :: rest)

/-- a set made of a run of records of the same owner and type: the owner, type, class and TTL of the first record, and the data
of all, in order -/
def Merges (chunk : List RRset) (set : RRset) : Prop :=
  ∃ first rest, chunk = first :: rest ∧ (∀ r ∈ rest, r.SameOwner first) ∧ set = { first with rdatas := chunk.flatMap RRset.rdatas }

/-- the records cut into runs, one set for each run, no two neighbouring sets of the same owner and type -/
def Grouped (recs sets : List RRset) : Prop :=
  (∃ chunks : List (List RRset), chunks.flatten = recs ∧ List.Forall₂ Merges chunks sets) ∧ NoNeighbours sets

/-- a section as the decoder makes them: absent or not empty, sets that fit, no neighbours of the same owner and type, OPT not at the
head of the answer and authority sections and always as one record -/
def SectionFits (t : SectionType) : Section → Prop
  | none => True
  | some sets => sets ≠ [] ∧ (∀ s ∈ sets, s.Fits) ∧ NoNeighbours sets ∧
      (∀ s, sets.head? = some s → s.typ = .OPT → t = .Additional) ∧ ∀ s ∈ sets, s.typ = .OPT → s.rdatas.length ≤ 1

/-- a valid name and codes -/
def Question.Fits (q : Question) : Prop :=
  (∃ ls, ValidName ls ∧ q.name = Name.ofLabels ls) ∧ RRType.new q.typ.as_u16 = q.typ ∧ RRClass.new q.class_.to_u16 = q.class_

/-- a message whose header describes it: one question, the section counts, and only the seven flag bits set -/
structure Response.Fits (m : Response) : Prop where
  question : m.question.Fits
  answer : SectionFits .Answer m.answer
  authority : SectionFits .Authority m.authority
  additional : SectionFits .Additional m.additional
  flag : m.header.flag &&& 0x87b0 = m.header.flag
  qd : m.header.qd_count = 1
  an : m.header.an_count.toNat = (Section.records m.answer).length
  ns : m.header.ns_count.toNat = (Section.records m.authority).length
  ar : m.header.ar_count.toNat = (Section.records m.additional).length

/-! The same for a buffer of `L` octets: record data of more than 65535 octets is a problem only if the buffer could hold it. -/

structure RRset.FitsIn (L : Nat) (s : RRset) : Prop where
  name : ∃ ls, ValidName ls ∧ s.name = Name.ofLabels ls
  typ : RRType.new s.typ.as_u16 = s.typ
  class_ : RRClass.new s.class_.to_u16 = s.class_
  data : ∀ rd ∈ s.rdatas, rd.kind = s.typ ∧ rd.Fits ∧ 1 ≤ rd.size ∧ (L ≤ 65535 ∨ rd.size ≤ 65535)
  empty : s.rdatas = [] → s.typ = .OPT

def SectionFitsIn (L : Nat) (t : SectionType) : Section → Prop
  | none => True
  | some sets => sets ≠ [] ∧ (∀ s ∈ sets, s.FitsIn L) ∧ NoNeighbours sets ∧
      (∀ s, sets.head? = some s → s.typ = .OPT → t = .Additional) ∧ ∀ s ∈ sets, s.typ = .OPT → s.rdatas.length ≤ 1

structure Response.FitsIn (L : Nat) (m : Response) : Prop where
  question : m.question.Fits
  answer : SectionFitsIn L .Answer m.answer
  authority : SectionFitsIn L .Authority m.authority
  additional : SectionFitsIn L .Additional m.additional
  flag : m.header.flag &&& 0x87b0 = m.header.flag
  qd : m.header.qd_count = 1
  an : m.header.an_count.toNat = (Section.records m.answer).length
  ns : m.header.ns_count.toNat = (Section.records m.authority).length
  ar : m.header.ar_count.toNat = (Section.records m.additional).length

/-! What any Rust value satisfies: the fields have the types of the struct, and names are valid. Lengths are not limited. -/

def FieldTyped : Codec → FieldVal → Prop
  | .name, .name n => ∃ ls, ValidName ls ∧ n = Name.ofLabels ls
  | .ipv4, .ip o => o.length = 4
  | .ipv6, .ip o => o.length = 16
  | .u8, .u8 _ => True
  | .u16, .u16 _ => True
  | .u32, .u32 _ => True
  | .rrtype, .rrtype _ => True
  | .text, .text _ => True
  | .byte_binary, .bytes _ => True
  | .binary, .bytes _ => True
  | _, _ => False

def FieldsTyped : List (Codec × Disp) → List FieldVal → Prop
  | [], [] => True
  | c :: cs, v :: vs => FieldTyped c.1 v ∧ FieldsTyped cs vs
  | _, _ => False

def RData.Typed (rd : RData) : Prop := ∃ cs, schema rd.kind = some cs ∧ FieldsTyped cs rd.fields

def RRset.Typed (s : RRset) : Prop := (∃ ls, ValidName ls ∧ s.name = Name.ofLabels ls) ∧ ∀ rd ∈ s.rdatas, rd.Typed

/-- the names of question and records are valid, the data has the fields of its type -/
structure Response.Typed (m : Response) : Prop where
  question : ∃ ls, ValidName ls ∧ m.question.name = Name.ofLabels ls
  sections : ∀ t sets, m.section_ t = some sets → ∀ s ∈ sets, s.Typed

end R53
