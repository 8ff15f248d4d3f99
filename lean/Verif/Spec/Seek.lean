import Verif.Spec.Encode
/-!
# The reference encoder with the search of the renderer

`encLabels` (Spec/Encode.lean) looks a name up in its dictionary. The renderer compares the name with the entries that have its
hash and its length, one after the other, and takes up the name where the last comparison left it (message_render.rs:138-152).
So when two names have hash and length in common, a name that is known may be spelled again, and a name may be refused. This is
that encoder: octets, the names remembered, and how much room is asked for; `none` if a name is refused. No table, no bits, no
buffer.
-/
namespace R53

/-- two runs of octets compared from the front -/
inductive Met where
  /-- the first is a prefix of the second; what follows it in the second -/
  | all (rest : List UInt8)
  /-- they differ; what follows the difference in the second -/
  | differ (rest : List UInt8)
  /-- the second ended too early -/
  | short
deriving DecidableEq, Repr

def meets : List UInt8 → List UInt8 → Met
  | [], s => .all s
  | _ :: _, [] => .short
  | x :: w, y :: s => if x = y then meets w s else .differ s

/-- the name that is left, compared with one entry after the other: refused, not found, or found where -/
def seekIn : Dict → List UInt8 → Option (Option Nat)
  | [], _ => some none
  | e :: es, s => match meets (nameWire e.1) s with
    | .all _ => some (some e.2)
    | .differ rest => seekIn es rest
    | .short => none

/-- the entries with the hash and the length of a name -/
def Dict.alike (d : Dict) (ls : List Label) : Dict :=
  d.filter fun e => Render.hashBytes (nameWire e.1) = Render.hashBytes (nameWire ls) ∧ (nameWire e.1).length = (nameWire ls).length

def Dict.seek (d : Dict) (ls : List Label) : Option (Option Nat) := seekIn (d.alike ls) (nameWire ls)

/-- the outcome of encoding -/
structure Written where
  octets : List UInt8
  /-- the dictionary after it -/
  names : Dict
  /-- the room that is asked for: that of the octets, but one more for empty data -/
  room : Nat
deriving DecidableEq, Repr

/-- what to write, given the dictionary and the position; `none`: refused -/
abbrev Seek := Dict → Nat → Option Written

/-- a name -/
def seekLabels (d : Dict) (pos : Nat) : List Label → Option (List UInt8 × Dict)
  | [] => some ([0], d)
  | l :: ls => match d.seek (l :: ls) with
    | none => none
    | some (some p) => some (pointerTo p, d)
    | some none =>
      (seekLabels (if pos ≤ 0x3fff ∧ Memory.table d (l :: ls) then d ++ [(l :: ls, pos)] else d) (pos + (l.length + 1)) ls).map
        fun rest => (labelWire l ++ rest.1, rest.2)

namespace Seek
def octets (o : List UInt8) : Seek := fun d _ => some ⟨o, d, o.length⟩
def name (n : Name) : Seek := fun d pos => (seekLabels d pos n.labelList).map fun x => ⟨x.1, x.2, x.1.length⟩
def seq (a b : Seek) : Seek := fun d pos =>
  (a d pos).bind fun x => (b x.names (pos + x.octets.length)).map fun y =>
    ⟨x.octets ++ y.octets, y.names, max x.room (x.octets.length + y.room)⟩
def all : List Seek → Seek
  | [] => octets []
  | e :: es => seq e (all es)
/-- two octets of length, then the thing itself. The place of the length is skipped first, and `skip` wants an octet behind it
(util/output_buffer.rs:36-43) -/
def measured (e : Seek) : Seek := fun d pos =>
  (e d (pos + 2)).map fun x => ⟨be16 (UInt16.ofNat x.octets.length) ++ x.octets, x.names, max 3 (2 + x.room)⟩

def fields : Writing Seek where
  addr _ o := octets o
  num8 v := octets [v]
  num16 v := octets (be16 v)
  num32 v := octets (be32 v)
  typ t := octets (be16 t.as_u16)
  str s := octets (withLen s)
  rest s := octets s
  name := name
  newName := name

/-- the data of a record as in the documents (Spec/Layout.lean), every name compressed -/
def data (rd : RData) : Seek := all ((layout fields rd.kind rd.fields).getD [])

def owner (s : RRset) : Seek := seq (name s.name) (octets (be16 s.typ.as_u16 ++ (be16 s.class_.to_u16 ++ be32 s.ttl)))

def set (s : RRset) : Seek :=
  if s.rdatas = [] then seq (owner s) (octets [0, 0])
  else all (s.rdatas.map fun rd => seq (owner s) (measured (data rd)))

def «section» (s : Section) : Seek := all ((s.getD []).map set)

def header (h : Header) : Seek :=
  octets (be16 h.id ++ be16 h.header_flag ++ be16 h.qd_count ++ be16 h.an_count ++ be16 h.ns_count ++ be16 h.ar_count)

def question (q : Question) : Seek := seq (name q.name) (octets (be16 q.typ.as_u16 ++ be16 q.class_.to_u16))

def head (m : Response) : Seek := seq (header m.header) (question m.question)

def body (m : Response) : Seek := seq («section» m.answer) (seq («section» m.authority) («section» m.additional))

def message (m : Response) : Seek := seq (head m) (body m)
end Seek

/-- what the renderer makes of a message when it has room enough; `none` if one of the names is refused -/
def Response.written (m : Response) : Option Written := Seek.message m [] 0

end R53
