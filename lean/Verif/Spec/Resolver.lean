import Verif.Spec.Client
/-!
# A caching resolver, for C115

Not code of /repo: a user's program. It looks names up with another server (Spec/Client), keeps what it is told in a `DomainTree` of its own (Spec/Server) and answers from that.
-/
namespace R53

/-- something that the resolver looks up: id, name and type -/
structure Query where
  id : UInt16
  name : List Label
  typ : RRType

/-- owner (letter case aside) and type asked for -/
def Query.key (q : Query) : List Label × RRType := (lowerName q.name, q.typ)

/-- the resolver: one lookup after the other; it keeps what it is told -/
def Resolver.run (m : Build) (backing : List UInt8) (udp tcp : List UInt8 → List (List UInt8)) : List Query → St (Dom (List RRset)) Unit
  | [] => pure ()
  | q :: qs => do
    match ← St.lift (Client.lookup q.id ⟨Name.ofLabels q.name, q.typ, .IN⟩ backing udp tcp) with
    | some msg => Server.keep m (Server.told msg)
    | none => pure ()
    Resolver.run m backing udp tcp qs

/-! ## resolvers that ask resolvers, for C116 -/

/-- how a resolver reaches the server it asks: the buffers of both sides, the forwarders on the two ways, the network -/
structure Way where
  small : List UInt8
  large : List UInt8
  backing : List UInt8
  us : List (List UInt8)
  ts : List (List UInt8)
  udp : List UInt8 → List (List UInt8)
  tcp : List UInt8 → List (List UInt8)

/-- the buffers have the minimal sizes, and the network brings what is sent and forges nothing -/
structure Way.Works (m : Build) (tree : Dom (List RRset)) (w : Way) (qs : List Query) : Prop where
  le : w.small.length ≤ w.large.length
  le' : w.large.length ≤ 65535
  forwarders : (∀ b ∈ w.us, 526 ≤ b.length ∧ b.length ≤ 65535) ∧ ∀ b ∈ w.ts, 526 ≤ b.length ∧ w.large.length ≤ b.length ∧ b.length ≤ 65535
  brings : Brings (Server.through m tree w.small w.us) w.udp ∧ Brings (Server.through m tree w.large w.ts) w.tcp
  asks : ∀ q ∈ qs, ValidName q.name ∧ (m = .debug → ∀ l ∈ q.name, ∀ c ∈ l, c.toNat < 128) ∧ RRType.new q.typ.as_u16 = q.typ
  fits : ∀ q ∈ qs, (nameWire q.name).length + 271 ≤ w.small.length ∧ (nameWire q.name).length + 16 ≤ w.backing.length
  unforged : ∀ q ∈ qs, Unforged (Server.through m tree w.small w.us) q.id q.name q.typ w.udp ∧ Unforged (Server.through m tree w.large w.ts) q.id q.name q.typ w.tcp

/-- the data of the zone for an owner and a type -/
def zoneData (sets : List RRset) (k : List Label) (t : RRType) : List (List Label × RRType × RData) := ((setsOf sets k).filter fun s => s.typ = t).flatMap RRset.facts

/-- the zone has data for the owner and type; they fit `size` octets after a question of `len` octets, all names written out; and no two of the names - the owner in all its spellings, and those in the
data of the owner - collide under the hash of the renderer -/
def Room (sets : List RRset) (k : List Label) (t : RRType) (len size : Nat) : Prop :=
  zoneData sets k t ≠ [] ∧ len + 16 + ((zoneData sets k t).map factSize).sum ≤ size ∧
    ∃ ns, ClashFree ns ∧ (∀ ls, ValidName ls → lowerName ls = k → Name.ofLabels ls ∈ ns) ∧ ∀ s ∈ setsOf sets k, ∀ rd ∈ s.rdatas, ∀ v ∈ rd.fields, ∀ n ∈ v.names, n ∈ ns

/-- trees that answer for the zone: the one of its server, for every owner and type; and those of resolvers, which have looked up owners and types with any of them that answers for these -/
inductive Caches (m : Build) (sets : List RRset) (tree0 : Dom (List RRset)) : Dom (List RRset) → (List Label → RRType → Prop) → Prop
  | server : Caches m sets tree0 tree0 fun _ _ => True
  | resolver (tree : Dom (List RRset)) (for_ : List Label → RRType → Prop) (w : Way) (qs : List Query) (own : Dom (List RRset)) : Caches m sets tree0 tree for_ →
      (∀ q ∈ qs, for_ (lowerName q.name) q.typ) → (qs.map Query.key).Nodup → w.Works m tree qs → (∀ q ∈ qs, Room sets (lowerName q.name) q.typ (nameWire q.name).length w.large.length) →
      Resolver.run m w.backing w.udp w.tcp qs Dom.new = (.ok (), own) → Caches m sets tree0 own fun k t => (k, t) ∈ qs.map Query.key

end R53
