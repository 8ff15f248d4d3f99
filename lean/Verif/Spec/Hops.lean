import Verif.Model.Message
/-!
# A chain of forwarders

Each decodes the octets it gets and sends what it decoded on, from a buffer of its own (specification for C109).
-/
namespace R53

/-- one of them: the octets it sends, `none` if it refuses or panics -/
def hop (raw backing : List UInt8) : Option (List UInt8) :=
  match Response.from_wire raw with
  | .ok m =>
    match m.to_wire (Render.new backing) with
    | (.ok n, r) => some (r.data.take n)
    | _ => none
  | _ => none

/-- one after the other -/
def hops : List (List UInt8) → List UInt8 → Option (List UInt8)
  | [], raw => some raw
  | b :: bs, raw => (hop raw b).bind (hops bs)

end R53
