import Verif.Spec.Size
import Verif.Spec.Layout
import Verif.Spec.Bytes
/-!
# The reference encoder

The textbook way to write a message with name compression (RFC 1035 section 4.1.4): a dictionary of the names written so
far, with their parents and positions; a name is spelled label by label until its rest is in the dictionary, and then a
pointer to that position follows. No table, no collisions, no buffer. Which names are remembered is a parameter, because RFC
1035 leaves it open: `Memory.all` remembers every name, `Memory.table` only as many as the table of the renderer has places for.
-/
namespace R53

/-- names written and where, oldest first -/
abbrev Dict := List (List Label × Nat)

/-- what to write, given the dictionary and the position, and the dictionary after it -/
abbrev Enc := Dict → Nat → List UInt8 × Dict

/-- which names are remembered -/
abbrev Memory := Dict → List Label → Bool

/-- every name -/
def Memory.all : Memory := fun _ _ => true

/-- the remembered names that share a bucket with a name: there are 64 buckets (message_render.rs:117, 140, 156) -/
def Dict.sharing (d : Dict) (ls : List Label) : Dict :=
  d.filter fun e => (Render.hashBytes (nameWire e.1)).toNat % 64 = (Render.hashBytes (nameWire ls)).toNat % 64

/-- as many names as the table has places for: 15 in every bucket (message_render.rs:118, 155-164) -/
def Memory.table : Memory := fun d ls => (d.sharing ls).length < 15

/-- the labels of a name, without the root -/
def Name.labelList (n : Name) : List Label :=
  (n.offsets.take (n.offsets.length - 1)).map fun o => (n.raw.drop (o + 1)).take (n.raw.getD o 0).toNat

/-- a pointer -/
def pointerTo (p : Nat) : List UInt8 := [UInt8.ofNat (192 + p / 256), UInt8.ofNat (p % 256)]

/-- a name: positions above 0x3fff cannot be pointed at, so are not remembered -/
def encLabels (k : Memory) (d : Dict) (pos : Nat) : List Label → List UInt8 × Dict
  | [] => ([0], d)
  | l :: ls => match d.lookup (l :: ls) with
    | some p => (pointerTo p, d)
    | none =>
      let rest := encLabels k (if pos ≤ 0x3fff ∧ k d (l :: ls) then d ++ [(l :: ls, pos)] else d) (pos + (l.length + 1)) ls
      (labelWire l ++ rest.1, rest.2)

namespace Enc
def octets (o : List UInt8) : Enc := fun d _ => (o, d)
def name (k : Memory) (n : Name) : Enc := fun d pos => encLabels k d pos n.labelList
def seq (a b : Enc) : Enc := fun d pos =>
  let x := a d pos
  let y := b x.2 (pos + x.1.length)
  (x.1 ++ y.1, y.2)
def all : List Enc → Enc
  | [] => octets []
  | e :: es => seq e (all es)
/-- two octets of length, then the thing itself -/
def measured (e : Enc) : Enc := fun d pos =>
  let x := e d (pos + 2)
  (be16 (UInt16.ofNat x.1.length) ++ x.1, x.2)
end Enc

/-- a string with its length -/
def withLen (s : List UInt8) : List UInt8 := UInt8.ofNat s.length :: s

/-- fields as octets, given how to write a name in the types that came after RFC 1035 -/
def Enc.fields (k : Memory) (newer : Name → Enc) : Writing Enc where
  addr _ o := Enc.octets o
  num8 v := Enc.octets [v]
  num16 v := Enc.octets (be16 v)
  num32 v := Enc.octets (be32 v)
  typ t := Enc.octets (be16 t.as_u16)
  str s := Enc.octets (withLen s)
  rest s := Enc.octets s
  name := Enc.name k
  newName := newer

/-- the data of a record as in the documents (Spec/Layout.lean) -/
def rfcData (k : Memory) (newer : Name → Enc) (rd : RData) : Enc := Enc.all ((layout (Enc.fields k newer) rd.kind rd.fields).getD [])

/-- the data of a record when every name may be compressed -/
def encData (k : Memory) (rd : RData) : Enc := rfcData k (Enc.name k) rd

/-- owner, type, class, TTL -/
def encOwner (k : Memory) (s : RRset) : Enc :=
  Enc.seq (Enc.name k s.name) (Enc.octets (be16 s.typ.as_u16 ++ (be16 s.class_.to_u16 ++ be32 s.ttl)))

/-- the records of a set, given how to write the data -/
def encSetWith (k : Memory) (data : RData → Enc) (s : RRset) : Enc :=
  if s.rdatas = [] then Enc.seq (encOwner k s) (Enc.octets [0, 0])
  else Enc.all (s.rdatas.map fun rd => Enc.seq (encOwner k s) (Enc.measured (data rd)))

abbrev encSet (k : Memory) (s : RRset) : Enc := encSetWith k (encData k) s

def encSectionWith (k : Memory) (data : RData → Enc) (s : Section) : Enc := Enc.all ((s.getD []).map (encSetWith k data))

abbrev encSection (k : Memory) (s : Section) : Enc := encSectionWith k (encData k) s

def encHeader (h : Header) : Enc :=
  Enc.octets (be16 h.id ++ be16 h.header_flag ++ be16 h.qd_count ++ be16 h.an_count ++ be16 h.ns_count ++ be16 h.ar_count)

def encQuestion (k : Memory) (q : Question) : Enc := Enc.seq (Enc.name k q.name) (Enc.octets (be16 q.typ.as_u16 ++ be16 q.class_.to_u16))

/-- header and question -/
def encHead (k : Memory) (m : Response) : Enc := Enc.seq (encHeader m.header) (encQuestion k m.question)

def encMessageWith (k : Memory) (data : RData → Enc) (m : Response) : Enc :=
  Enc.seq (encHead k m) (Enc.seq (encSectionWith k data m.answer) (Enc.seq (encSectionWith k data m.authority) (encSectionWith k data m.additional)))

abbrev encMessage (k : Memory) (m : Response) : Enc := encMessageWith k (encData k) m

/-- the octets of a message -/
def Response.encodedBy (k : Memory) (m : Response) : List UInt8 := (encMessage k m [] 0).1

/-- the octets of a message when every name is remembered -/
abbrev Response.encoded (m : Response) : List UInt8 := m.encodedBy Memory.all

/-- the names written in a message -/
def Response.dictionary (m : Response) : Dict := (encMessage Memory.all m [] 0).2

/-- a name spelled in full, and not remembered -/
def Enc.plain (n : Name) : Enc := Enc.octets (nameWire n.labelList)

/-- the octets of a message under RFC 3597 section 4: in the data of types that RFC 1035 does not define, names are spelled in
full (so also RFC 2782 for SRV, RFC 3403 4.1 for NAPTR, RFC 6672 2.5 for DNAME, RFC 4034 3.1.7 and 4.1.1 for RRSIG and NSEC) -/
def Response.encoded3597 (k : Memory) (m : Response) : List UInt8 := (encMessageWith k (rfcData k Enc.plain) m [] 0).1

/-- the types that came after RFC 1035 and have a name in their data -/
def newerWithName : List RRType := [.RP, .SRV, .NAPTR, .DNAME, .RRSIG, .NSEC]

/-- how many octets of a name are spelled: up to the first parent in the dictionary, or all -/
def spelled (d : Dict) : List Label → Nat
  | [] => 1
  | l :: ls => if (d.lookup (l :: ls)).isSome then 0 else l.length + 1 + spelled d ls

/-- the spelled labels of a name are written at once, and so are the two octets of a pointer -/
def firstPiece (d : Dict) (ls : List Label) : Nat := if spelled d ls = 0 then 2 else spelled d ls

/-- the first octets behind the question -/
def Response.firstPiece (k : Memory) (m : Response) : Nat := match m.records with
  | [] => 0
  | x :: _ => R53.firstPiece (encHead k m [] 0).2 x.name.labelList

/-- the table of the renderer has enough places for these names -/
def Roomy (d : Dict) : Prop := ∀ e ∈ d, (d.sharing e.1).length ≤ 15

instance (d : Dict) : Decidable (Roomy d) := by unfold Roomy; infer_instance

end R53
