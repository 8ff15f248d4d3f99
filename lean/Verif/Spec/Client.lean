import Verif.Spec.Server
import Verif.Spec.Hops
/-!
# A client that asks a name server over a network, for C113

Not code of /repo: a user's program. It asks, takes the first of the octets that arrive which are a response to its question, and asks again if that was truncated.
-/
namespace R53

/-- does the client take these octets for the response to its question? They must decode, have its id and its question (compared with `==`), and be a response -/
def Client.accept (id : UInt16) (q : Question) (raw : List UInt8) : Res (Option Response) :=
  match Response.from_wire raw with
  | .ok msg => do
    let same ← Question.eq msg.question q
    pure (if msg.header.id = id ∧ same = true ∧ msg.header.is_flag_set .QueryRespone = true then some msg else none)
  | .err => .ok none
  | .panic => .panic

/-- the first that it takes, of what arrives -/
def Client.receive (id : UInt16) (q : Question) : List (List UInt8) → Res (Option Response)
  | [] => .ok none
  | raw :: rest => do
    match ← Client.accept id q raw with
    | some msg => pure (some msg)
    | none => Client.receive id q rest

/-- the octets of a request -/
def Client.request (id : UInt16) (q : Question) (backing : List UInt8) : Res (List UInt8) :=
  match (Request.new id q.name q.typ).to_wire (Render.new backing) with
  | (.ok _, r) => .ok r.data
  | (.err, _) => .err
  | (.panic, _) => .panic

/-- the client: `udp` and `tcp` are what arrives when these octets are sent in the one way or the other -/
def Client.lookup (id : UInt16) (q : Question) (backing : List UInt8) (udp tcp : List UInt8 → List (List UInt8)) : Res (Option Response) := do
  let sent ← Client.request id q backing
  match ← Client.receive id q (udp sent) with
  | none => pure none
  | some msg => if msg.header.is_flag_set .Truncation = true then Client.receive id q (tcp sent) else pure (some msg)

/-- a server behind forwarders, which send on what it sends, each from a buffer of its own -/
def Server.through (m : Build) (tree : Dom (List RRset)) (backing : List UInt8) (forwarders : List (List UInt8)) (raw : List UInt8) : Res (List UInt8) := do
  let out ← Server.serve m tree raw backing
  match hops forwarders out with
  | some o => .ok o
  | none => .err

/-- octets that decode to a response with this id to this question (letter case aside) -/
def Plausible (id : UInt16) (ls : List Label) (t : RRType) (raw : List UInt8) : Prop :=
  ∃ msg, Response.from_wire raw = .ok msg ∧ msg.header.id = id ∧ lowerName msg.question.name.labelList = lowerName ls ∧ msg.question.typ = t ∧ msg.question.class_ = .IN ∧
    msg.header.is_flag_set .QueryRespone = true

/-- a network that loses, repeats and delays what the server sends, and brings any other octets between, as long as nobody else guesses id and question -/
def Unforged (server : List UInt8 → Res (List UInt8)) (id : UInt16) (ls : List Label) (t : RRType) (net : List UInt8 → List (List UInt8)) : Prop :=
  ∀ sent, ∀ raw ∈ net sent, server sent = .ok raw ∨ ¬ Plausible id ls t raw

/-- a network that brings at least one copy of what the server sends -/
def Brings (server : List UInt8 → Res (List UInt8)) (net : List UInt8 → List (List UInt8)) : Prop := ∀ sent out, server sent = .ok out → out ∈ net sent

/-- a response that says of a name and a type exactly what a table of record sets says -/
def Tells (M : Table (List RRset)) (ls : List Label) (t : RRType) (msg : Response) : Prop :=
  msg.header.rcode = (if Server.known M (lowerName ls) = none then .Refused else .NoError) ∧
  ∀ s, ((msg.section_ s).sets.flatMap RRset.facts).Perm (Server.says (Server.known M (lowerName ls)) (lowerName ls) t s)

end R53
