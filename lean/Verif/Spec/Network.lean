import Verif.Spec.Server
import Verif.Spec.Hops
/-!
# A network of name servers, caches and forwarders, for C111

Not code of /repo: programs of users (Spec/Server, Spec/Hops), in any number, each sending to any other.
-/
namespace R53

/-- a zone as text: groups of lines -/
abbrev Zone := List (List (List UInt8))

/-- a record set that is written in one of the zones -/
def Zone.has (m : Build) (zones : List Zone) (s : RRset) : Prop := ∃ zone ∈ zones, ∃ g ∈ zone, RRset.from_strs stdExt m g = .ok s

/-- a fact (owner, type, data) that is written in one of the zones -/
def Zone.says (m : Build) (zones : List Zone) (f : List Label × RRType × RData) : Prop := ∃ s, Zone.has m zones s ∧ f ∈ s.facts

/-- the octets that are sent in such a network, when requests are any octets: by a server that has loaded a zone, in answer to a request; by a cache that has learned from
responses sent in the network, in answer to a request; by a forwarder that has received what was sent. Buffers have up to 65535 octets; no name has more than 65535 records -/
inductive Sent (m : Build) (zones : List Zone) : List UInt8 → Prop where
  | server (zone : Zone) (sets : List RRset) (tree : Dom (List RRset)) (raw backing out : List UInt8) (mem : zone ∈ zones)
      (text : zone.map (RRset.from_strs stdExt m) = sets.map Res.ok) (few : ∀ k, ((setsOf sets k).flatMap RRset.facts).length ≤ 65535)
      (load : Server.load m zone Dom.new = (.ok (), tree)) (room : backing.length ≤ 65535) (serve : Server.serve m tree raw backing = .ok out) : Sent m zones out
  | cache (raws : List (List UInt8)) (msgs : List Response) (tree : Dom (List RRset)) (raw backing out : List UInt8) (sent : ∀ x ∈ raws, Sent m zones x)
      (decoded : raws.map Response.from_wire = msgs.map Res.ok) (few : ∀ k, ((setsOf (msgs.flatMap Server.told) k).flatMap RRset.facts).length ≤ 65535)
      (learn : Server.learn m raws Dom.new = (.ok (), tree)) (room : backing.length ≤ 65535) (serve : Server.serve m tree raw backing = .ok out) : Sent m zones out
  | forward (raw backing out : List UInt8) (sent : Sent m zones raw) (room : backing.length ≤ 65535) (hop : hop raw backing = some out) : Sent m zones out

/-- a response that says nothing but what is known to `P`, and only what it is asked -/
structure Faithful (P : List Label × RRType × RData → Prop) (msg : Response) : Prop where
  response : msg.header.is_flag_set .QueryRespone = true
  known : ∀ t, ∀ s ∈ (msg.section_ t).sets, ∀ f ∈ s.facts, P f
  answer : ∀ s ∈ (msg.section_ .Answer).sets, ∀ f ∈ s.facts, f.1 = lowerName msg.question.name.labelList ∧ f.2.1 = msg.question.typ
  authority : ∀ s ∈ (msg.section_ .Authority).sets, ∀ f ∈ s.facts, f.1 <:+ lowerName msg.question.name.labelList ∧ f.2.1 = .NS
  additional : ∀ s ∈ (msg.section_ .Additional).sets, s.facts = []

end R53
