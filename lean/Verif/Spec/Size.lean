import Verif.Spec.Message
/-!
# How much room a message needs without compression, and which names it writes
-/
namespace R53

/-- every record repeats the owner name; then type, class, TTL and data length take ten octets -/
def RRset.size (s : RRset) : Nat :=
  if s.rdatas = [] then s.name.raw.length + 10 else (s.rdatas.map fun rd => s.name.raw.length + 10 + rd.size).sum

def Section.size : Section → Nat
  | none => 0
  | some sets => (sets.map RRset.size).sum

/-- header and question -/
def Response.headSize (m : Response) : Nat := 12 + (m.question.name.raw.length + 4)

/-- the uncompressed size of a message -/
def Response.size (m : Response) : Nat :=
  m.headSize + (Section.size m.answer + (Section.size m.authority + Section.size m.additional))

/-- the records of a message, in order -/
def Response.records (m : Response) : List RRset :=
  Section.records m.answer ++ (Section.records m.authority ++ Section.records m.additional)

def FieldVal.names : FieldVal → List Name
  | .name n => [n]
  | _ => []

def RRset.names (s : RRset) : List Name := s.name :: s.rdatas.flatMap fun rd => rd.fields.flatMap FieldVal.names

def Section.names : Section → List Name
  | none => []
  | some sets => sets.flatMap RRset.names

/-- the names a message writes: of the question, then of each set the owner (written with every record of the set) and those in its data -/
def Response.names (m : Response) : List Name :=
  m.question.name :: (Section.names m.answer ++ Section.names m.authority ++ Section.names m.additional)

/-- wire form of a name and of its parents, without the root -/
def Name.tails (n : Name) : List (List UInt8) := (n.offsets.take (n.label_count - 1)).map fun o => n.raw.drop o

/-- no two of these names or their parents have the same length and the same value under the hash function of the renderer
(message_render.rs:65-72) without being the same octets -/
def ClashFree (ns : List Name) : Prop :=
  ∀ a ∈ ns.flatMap Name.tails, ∀ b ∈ ns.flatMap Name.tails, a.length = b.length → Render.hashBytes a = Render.hashBytes b → a = b

instance (ns : List Name) : Decidable (ClashFree ns) := by unfold ClashFree; infer_instance

/-- every data takes at least one octet (an empty one could not be read back) -/
def Response.NoEmptyData (m : Response) : Prop := ∀ t sets, m.section_ t = some sets → ∀ s ∈ sets, ∀ rd ∈ s.rdatas, 1 ≤ rd.size

end R53
