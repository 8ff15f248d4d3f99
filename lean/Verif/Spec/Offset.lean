import Verif.Spec.Seek
/-!
# Messages behind something else in a renderer
-/
namespace R53

/-- how much of the encoded name `out` of the labels `ls` is written at once: all of it if it is spelled out or only a pointer, otherwise the labels
before the pointer (message_render.rs:60-103) -/
def pieceOf (ls : List Label) (out : List UInt8) : Nat :=
  if out.length = (nameWire ls).length ∨ out.length = 2 then out.length else out.length - 2

/-- what cutting a message off makes of the octets in front of its records: flags and counts go to the octets 2, 3 and 6 to 11 **of the whole buffer**
(response.rs:174-185) -/
def stamped (h : Header) (o : List UInt8) : List UInt8 :=
  o.take 2 ++ be16 ({ h with flag := h.flag ||| 0x0200 }).header_flag ++ (o.drop 4).take 2 ++ [0, 0, 0, 0, 0, 0] ++ o.drop 12

/-- several messages, one behind the other -/
def writeMessages : List Response → St Render Unit
  | [] => pure ()
  | m :: ms => m.to_wire >>= fun _ => writeMessages ms

/-- and read one behind the other -/
def readMessages : Nat → St InBuf (List Response)
  | 0 => pure []
  | n + 1 => Response.read >>= fun m => readMessages n >>= fun ms => pure (m :: ms)

end R53
