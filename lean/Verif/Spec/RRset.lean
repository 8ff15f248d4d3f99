import Batteries.Data.List.Basic
import Verif.Spec.Rdata
import Verif.Model.RRset
/-!
# Sameness of record data and of record sets
-/
namespace R53

/-- two fields are the same: names up to ASCII case, everything else exactly -/
def FieldSame : FieldVal → FieldVal → Prop
  | .name a, .name b => ∃ la lb, ValidName la ∧ ValidName lb ∧ a = Name.ofLabels la ∧ b = Name.ofLabels lb ∧ SameName la lb
  | a, b => a = b

/-- two record data values are the same: same type and same fields -/
def RData.Same (a b : RData) : Prop := a.kind = b.kind ∧ List.Forall₂ FieldSame a.fields b.fields

/-- two lists hold the same record data, up to order -/
def SameData (a b : List RData) : Prop := ∃ l, l.Perm b ∧ List.Forall₂ RData.Same a l

/-- names in the data have ASCII octets only -/
def FieldVal.Ascii : FieldVal → Prop
  | .name n => ∃ ls, ValidName ls ∧ n = Name.ofLabels ls ∧ ∀ l ∈ ls, ∀ c ∈ l, c.toNat < 128
  | _ => True

def RData.Ascii (rd : RData) : Prop := ∀ v ∈ rd.fields, v.Ascii

/-- same type and same owner up to letter case -/
def RRset.SameOwner (s t : RRset) : Prop := s.typ = t.typ ∧ FieldSame (.name s.name) (.name t.name)

end R53
