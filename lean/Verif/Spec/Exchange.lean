import Verif.Props.Calls
import Verif.Spec.Encode
import Verif.Spec.Size
/-!
# What can be sent of what a builder makes, for C101

A section can be sent if its sets fit (Spec/Message), no two are of the same owner and type, and OPT records, with one data at most, are in the
additional section only.
-/
namespace R53

/-- the sets of a section of a message that can be sent in a buffer of `L` octets -/
structure Proper (L : Nat) (t : SectionType) (sets : List RRset) : Prop where
  fits : ∀ s ∈ sets, s.FitsIn L
  distinct : AllDistinct sets
  opt : ∀ s ∈ sets, s.typ = .OPT → t = .Additional ∧ s.rdatas.length ≤ 1

/-- a section without sets is as good as none -/
def Section.tidy : Section → Section
  | some [] => none
  | s => s

/-- the message with no empty sections: what a receiver sees -/
def Response.tidy (m : Response) : Response := { m with answer := m.answer.tidy, authority := m.authority.tidy, additional := m.additional.tidy }

/-- what a server may do with a builder: bring in record sets that fit, other than OPT; set any code and flag; give any EDNS; remove and clear anything;
change a section as a whole into another one that can be sent -/
def BOp.Sendable (L : Nat) : BOp → Prop
  | .add _ s => s.FitsIn L ∧ s.typ ≠ .OPT
  | .question q => q.Fits
  | .with_section t f => ∀ s : Section, Proper L t s.sets → Proper L t (f s).sets
  | _ => True

/-- calls that answer a question do not change whose it is -/
def BOp.Answers : BOp → Prop
  | .id _ => False
  | .question _ => False
  | .clear_flag f => f ≠ .QueryRespone
  | _ => True

/-- the calls with which a server answers `q`: the id and the question of the request, the flag that makes it a response, any other calls, `done` -/
def replyCalls (q : Request) (ops : List BOp) : List BOp := .id q.header.id :: .question q.question :: .make_response :: ops ++ [.done]

/-- what a set says: its data, each with the owner (letter case aside) and the type -/
def RRset.facts (s : RRset) : List (List Label × RRType × RData) := s.rdatas.map fun d => (lowerName s.name.labelList, s.typ, d)

/-- what a call adds to section `t` -/
def BOp.adds (t : SectionType) : BOp → List (List Label × RRType × RData)
  | .add t' s => if t' = t then s.facts else []
  | _ => []

/-- the room that what a call adds takes in a message, with all names written out -/
def BOp.room : BOp → Nat
  | .add _ s => s.size
  | .edns _ => 11
  | _ => 0

/-- the names that a call brings into a message (the owner of EDNS is the root, which is never compressed) -/
def BOp.names : BOp → List Name
  | .add _ s => s.names
  | _ => []

/-- the room that one data takes in a message, with all names written out -/
def factSize (f : List Label × RRType × RData) : Nat := (nameWire f.1).length + 10 + f.2.2.size

/-- calls that take nothing out of a section -/
def BOp.Grows : BOp → Prop
  | .remove _ _ _ _ => False
  | .clear _ => False
  | .with_section _ _ => False
  | _ => True

end R53
