import Verif.Spec.RRset
import Verif.Model.Message
/-!
# Sameness of messages, as `==` means it

TTLs are left out on purpose ("in many cases, ttl should be ingnored for rrset equality", rrset.rs:139); so are the classes of record
sets.
-/
namespace R53

/-- same owner up to letter case, same type, same data up to order -/
def RRset.SameSet (s t : RRset) : Prop := s.SameOwner t ∧ SameData s.rdatas t.rdatas

/-- both absent, or the same sets in the same order -/
def Section.Same : Section → Section → Prop
  | none, none => True
  | some a, some b => List.Forall₂ RRset.SameSet a b
  | _, _ => False

/-- same name up to letter case, same type and class -/
def Question.Same (a b : Question) : Prop := FieldSame (.name a.name) (.name b.name) ∧ a.typ = b.typ ∧ a.class_ = b.class_

/-- the same header, to the bit, and the same question and sections -/
def Response.Same (a b : Response) : Prop := a.header = b.header ∧ a.question.Same b.question ∧ ∀ t, Section.Same (a.section_ t) (b.section_ t)

end R53
