import Verif.Spec.Message
import Verif.Spec.Layout
import Verif.Spec.Bytes
/-!
# What it means for octets to be a message

RFC 1035 section 4 as statements about places in the octets: `X msg p v e` says that at position `p` the octets spell `v`, up to
before position `e`. No cursor, no fuel, no failure. Names may be compressed in every legal way (`Decodes`, Spec/Name.lean).
-/
namespace R53

/-- between two positions of a message -/
abbrev Wire := List UInt8 → Nat → Nat → Prop

def OctetsAt (o : List UInt8) : Wire := fun msg p e => e = p + o.length ∧ o <+: msg.drop p

/-- a valid name, compressed or not; pointers point before the name -/
def NameAt (n : Name) : Wire := fun msg p e => ∃ ls, Decodes msg p p ls e ∧ ValidName ls ∧ n = Name.ofLabels ls

/-- one thing after the other -/
def Wire.all : List Wire → Wire
  | [] => fun _ p e => e = p
  | w :: ws => fun msg p e => ∃ q, w msg p q ∧ Wire.all ws msg q e

def Wire.fields : Writing Wire where
  addr n o := fun msg p e => o.length = n ∧ OctetsAt o msg p e
  num8 v := OctetsAt [v]
  num16 v := OctetsAt (be16 v)
  num32 v := OctetsAt (be32 v)
  typ t := fun msg p e => ∃ v, t = RRType.new v ∧ OctetsAt (be16 v) msg p e
  str s := fun msg p e => s.length ≤ 255 ∧ OctetsAt (UInt8.ofNat s.length :: s) msg p e
  rest s := OctetsAt s
  name := NameAt
  newName := NameAt

/-- the data of a record -/
def DataAt (rd : RData) : Wire := fun msg p e => ∃ fs, layout Wire.fields rd.kind rd.fields = some fs ∧ Wire.all fs msg p e

/-- a resource record (RFC 1035 4.1.3): owner, type, class, TTL, length, data; only OPT may be without data -/
def RecordAt (s : RRset) : Wire := fun msg p e => ∃ q t c len, NameAt s.name msg p q ∧
  OctetsAt (be16 t ++ be16 c ++ be32 s.ttl ++ be16 len) msg q (q + 10) ∧ s.typ = RRType.new t ∧ s.class_ = RRClass.new c ∧
  e = q + 10 + len.toNat ∧
  ((len = 0 ∧ s.typ = .OPT ∧ s.rdatas = []) ∨ (len ≠ 0 ∧ ∃ rd, s.rdatas = [rd] ∧ rd.kind = s.typ ∧ DataAt rd msg (q + 10) e))

def RecordsAt (recs : List RRset) : Wire := Wire.all (recs.map RecordAt)

/-- no OPT record directly behind one of the same owner -/
def OptApart : List RRset → Prop
  | s :: t :: rest => ¬ (t.typ = .OPT ∧ t.SameOwner s) ∧ OptApart (t :: rest)
  | _ => True

/-- a section of `n` records, as sets: the records in order, runs of the same owner and type joined. OPT may not be first in the answer
and authority sections, nor repeated -/
def SectionAt (t : SectionType) (n : Nat) (s : Section) : Wire := fun msg p e =>
  (n = 0 ∧ s = none ∧ e = p) ∨
  ∃ first rest sets, n = rest.length + 1 ∧ RecordsAt (first :: rest) msg p e ∧ Grouped (first :: rest) sets ∧ s = some sets ∧
    (first.typ = .OPT → t = .Additional) ∧ OptApart (first :: rest)

/-- RFC 1035 4.1.2 -/
def QuestionAt (q : Question) : Wire := fun msg p e => ∃ p1 t c, NameAt q.name msg p p1 ∧ OctetsAt (be16 t ++ be16 c) msg p1 e ∧
  q.typ = RRType.new t ∧ q.class_ = RRClass.new c

/-- RFC 1035 4.1.1: twelve octets. In the second word the opcode is in bits 11 to 14, the rcode in bits 0 to 3, the flags
QR AA TC RD RA AD CD in 15, 10, 9, 8, 7, 5, 4 -/
def HeaderAt (h : Header) : Wire := fun msg p e => ∃ w : UInt16,
  OctetsAt (be16 h.id ++ be16 w ++ be16 h.qd_count ++ be16 h.an_count ++ be16 h.ns_count ++ be16 h.ar_count) msg p e ∧
  h.opcode = Opcode.new (UInt8.ofNat (w.toNat / 2048 % 16)) ∧ h.rcode = Rcode.new (UInt8.ofNat (w.toNat % 16)) ∧ h.flag = w &&& 0x87b0

/-- a message with one question; what comes behind it does not matter -/
def MessageAt (m : Response) (msg : List UInt8) : Prop := ∃ p1 p2 p3 e, HeaderAt m.header msg 0 12 ∧ m.header.qd_count = 1 ∧
  QuestionAt m.question msg 12 p1 ∧ SectionAt .Answer m.header.an_count.toNat m.answer msg p1 p2 ∧
  SectionAt .Authority m.header.ns_count.toNat m.authority msg p2 p3 ∧ SectionAt .Additional m.header.ar_count.toNat m.additional msg p3 e

end R53
