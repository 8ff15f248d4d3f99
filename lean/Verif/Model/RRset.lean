import Verif.Model.Rdata
/-!
# Model of `rrset.rs` (wire format, `is_same_rrset`, `==`)
-/
namespace R53

/-- `RRset` rrset.rs:40-47 (`RRTtl(pub u32)`, rrset.rs:11-12, is its number) -/
structure RRset where
  name : Name
  typ : RRType
  class_ : RRClass
  ttl : UInt32
  rdatas : List RData
deriving DecidableEq, Repr

namespace RRset

/-- rrset.rs:50-72 -/
def from_wire : St InBuf RRset := do
  let name ← Name.from_wire
  let typ ← RRType.from_wire
  let class_ ← RRClass.from_wire
  let ttl ← InBuf.read_u32
  let rdlen ← InBuf.read_u16
  if rdlen = 0 then
    if typ ≠ .OPT then St.fail else pure ⟨name, typ, class_, ttl, []⟩
  else do
    let rdata ← RData.from_wire typ rdlen
    pure ⟨name, typ, class_, ttl, [rdata]⟩

/-- rrset.rs:109-113: the length hole, the data, the length; `rdlen as u16` -/
def rdata_to_wire (rd : RData) : St Render Unit := do
  let r ← St.get
  let pos := r.buffer.len
  Render.skip 2
  rd.to_wire
  let r ← St.get
  let n ← St.lift (csub r.buffer.len pos)
  let rdlen ← St.lift (csub n 2)
  Render.write_u16_at pos (UInt16.ofNat rdlen)

/-- one record rrset.rs:105-113 -/
def rr_to_wire (s : RRset) (rd : RData) : St Render Unit := do
  Render.write_name s.name true
  s.typ.to_wire
  s.class_.to_wire
  Render.write_u32 s.ttl
  rdata_to_wire rd

/-- rrset.rs:104-114 -/
def rrs_to_wire (s : RRset) : List RData → St Render Unit
  | [] => pure ()
  | rd :: rds => do
    s.rr_to_wire rd
    s.rrs_to_wire rds

/-- rrset.rs:96-117 -/
def to_wire (s : RRset) : St Render Unit :=
  if s.rdatas = [] then do
    Render.write_name s.name true
    s.typ.to_wire
    s.class_.to_wire
    Render.write_u32 s.ttl
    Render.write_u16 0
  else s.rrs_to_wire s.rdatas

/-- rrset.rs:129-131 -/
def rr_count (s : RRset) : Nat := s.rdatas.length

/-- rrset.rs:133-135; `&&` is lazy -/
def is_same_rrset (s t : RRset) : Res Bool :=
  if s.typ = t.typ then Name.eq s.name t.name else .ok false

end RRset
end R53

namespace R53

/-- lexicographic comparison of slices (`Ord` of `[T]`, also of address octets) (derived `Ord` of rdatas.rs:11-191) -/
def lexBy {α : Type} (c : α → α → Ordering) : List α → List α → Ordering
  | [], [] => .eq
  | [], _ :: _ => .lt
  | _ :: _, [] => .gt
  | x :: xs, y :: ys => (c x y).then (lexBy c xs ys)

/-- derived `Ord` of rdatas.rs:11-191 -/
def cmpU8 (a b : UInt8) : Ordering := compare a.toNat b.toNat

namespace FieldVal

/-- `==` of a field (derived on the structs, rdatas.rs:11-225): names by `Name::eq`, all else structurally -/
def eq : FieldVal → FieldVal → Res Bool
  | .name a, .name b => Name.eq a b
  | a, b => .ok (decide (a = b))

/-- `cmp` of a field (derived `Ord`, rdatas.rs:11-225); fields at the same place have the same type -/
def cmp (m : Build) : FieldVal → FieldVal → Res Ordering
  | .name a, .name b => Name.cmp m a b
  | .ip a, .ip b => .ok (lexBy cmpU8 a b)
  | .u8 a, .u8 b => .ok (compare a.toNat b.toNat)
  | .u16 a, .u16 b => .ok (compare a.toNat b.toNat)
  | .u32 a, .u32 b => .ok (compare a.toNat b.toNat)
  | .rrtype a, .rrtype b => .ok (a.cmp b)
  | .text a, .text b => .ok (lexBy (lexBy cmpU8) a b)
  | .bytes a, .bytes b => .ok (lexBy cmpU8 a b)
  | _, _ => .ok .eq

/-- derived `==` of a struct: fields in order, stopping at the first difference (derived `PartialEq` of rdatas.rs:11-191) -/
def eqAll : List FieldVal → List FieldVal → Res Bool
  | [], [] => .ok true
  | a :: as, b :: bs => do
    if ← eq a b then eqAll as bs else pure false
  | _, _ => .ok false

/-- derived `cmp` of a struct (derived `Ord` of rdatas.rs:11-191) -/
def cmpAll (m : Build) : List FieldVal → List FieldVal → Res Ordering
  | [], [] => .ok .eq
  | a :: as, b :: bs => do
    match ← cmp m a b with
    | .eq => cmpAll m as bs
    | o => pure o
  | _, _ => .ok .eq

end FieldVal

namespace RData

/-- position of the variant in `enum RData`, rdata.rs:9-32 -/
def variant : RRType → Nat
  | .A => 0 | .AAAA => 1 | .NS => 2 | .CNAME => 3 | .SOA => 4 | .PTR => 5 | .MX => 6 | .TXT => 7 | .RP => 8 | .NAPTR => 9
  | .CERT => 10 | .DNAME => 11 | .OPT => 12 | .SRV => 13 | .DS => 14 | .RRSIG => 15 | .NSEC => 16 | .DNSKEY => 17
  | .NSEC3 => 18 | .NSEC3PARAM => 19 | .URI => 20 | .CAA => 21
  | _ => 22

/-- derived `==` rdata.rs:8 -/
def eq (a b : RData) : Res Bool := if a.kind = b.kind then FieldVal.eqAll a.fields b.fields else .ok false

/-- derived `cmp` rdata.rs:8: the variants in declaration order, then the fields -/
def cmp (m : Build) (a b : RData) : Res Ordering :=
  match compare (variant a.kind) (variant b.kind) with
  | .eq => FieldVal.cmpAll m a.fields b.fields
  | o => .ok o

/-- `==` of two vectors, lazily (rrset.rs:166) -/
def eqList : List RData → List RData → Res Bool
  | [], [] => .ok true
  | a :: as, b :: bs => do
    if ← eq a b then eqList as bs else pure false
  | _, _ => .ok false

/-- `other.iter().position(|o| rdata == o).is_some()` rrset.rs:154-158 -/
def elem (a : RData) : List RData → Res Bool
  | [] => .ok false
  | b :: bs => do
    if ← eq a b then pure true else elem a bs

/-- `self.iter().all(..)` rrset.rs:153 -/
def allIn : List RData → List RData → Res Bool
  | [], _ => .ok true
  | a :: as, bs => do
    if ← elem a bs then allIn as bs else pure false

end RData

namespace RRset

/-- `==` rrset.rs:140-167. `sort` stands for `sort_unstable` of the standard library, see `SortSpec`. -/
def eq (sort : List RData → Res (List RData)) (s t : RRset) : Res Bool := do
  if ← s.is_same_rrset t then
    if s.rdatas.length ≠ t.rdatas.length then pure false
    else if s.rdatas.length < 4 then RData.allIn s.rdatas t.rdatas
    else do
      let a ← sort s.rdatas
      let b ← sort t.rdatas
      RData.eqList a b
  else pure false

end RRset

/-- what the standard library promises of `sort_unstable`: if `cmp` answers on the given elements and is a total order on
them, the result is a permutation in ascending order; otherwise nothing is promised. (rrset.rs:162, 164) -/
def SortSpec (m : Build) (sort : List RData → Res (List RData)) : Prop :=
  ∀ l : List RData,
    (∀ a ∈ l, ∀ b ∈ l, ∃ o, RData.cmp m a b = .ok o ∧ RData.cmp m b a = .ok o.swap) →
    (∀ a ∈ l, ∀ b ∈ l, ∀ c ∈ l, RData.cmp m a b = .ok .lt → RData.cmp m b c = .ok .lt → RData.cmp m a c = .ok .lt) →
    ∃ l', sort l = .ok l' ∧ l'.Perm l ∧ l'.Pairwise fun a b => RData.cmp m a b ≠ .ok .gt

end R53
