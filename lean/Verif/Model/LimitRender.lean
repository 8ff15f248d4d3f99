import Verif.Model.Render
/-!
# The search for a written name with a limit on the octets it looks at

`find_offset` and what calls it, of `Model/Render`, once more function by function, except that a search may look at `k` octets of the message
(`self.buffer.at`, message_render.rs:93, 107 and 109) and panics when they are used up. The state is the name that is searched, with the number of
octets that may still be looked at. Used by C100 only.
-/
namespace R53
namespace Render

/-- one octet of the message, message_render.rs:93, 107, 109 -/
def look (ob : OutBuf) (p : Nat) : St (InBuf × Nat) UInt8 := fun s =>
  match s.2 with
  | 0 => (.panic, s)
  | k + 1 => (ob.at_ p, (s.1, k))

/-- one octet of the name, message_render.rs:84 and 94 -/
def nameOctet : St (InBuf × Nat) UInt8 := fun s => ((InBuf.read_u8 s.1).1, ((InBuf.read_u8 s.1).2, s.2))

/-- message_render.rs:106-112 -/
def nextLabelIn (ob : OutBuf) : (fuel next_pos : Nat) → St (InBuf × Nat) (UInt8 × Nat)
  | 0, _ => St.boom
  | fuel + 1, next_pos => do
    let b ← look ob next_pos
    if b &&& COMPRESS_POINTER_MARK8 = COMPRESS_POINTER_MARK8 then do
      let nb ← look ob (next_pos + 1)
      nextLabelIn ob fuel ((b &&& ~~~ COMPRESS_POINTER_MARK8).toNat * 256 + nb.toNat)
    else pure (b, (next_pos + 1) % 65536)

/-- message_render.rs:91-99 -/
def cmpLabelBytesIn (ob : OutBuf) : (n item_pos : Nat) → St (InBuf × Nat) (Option Nat)
  | 0, item_pos => pure (some item_pos)
  | n + 1, item_pos => do
    let ch1 ← look ob item_pos
    let ch2 ← nameOctet
    if ch1 ≠ ch2 then pure none
    else if item_pos + 1 < 65536 then cmpLabelBytesIn ob n (item_pos + 1)
    else St.boom

/-- message_render.rs:81-101 -/
def compareLoopIn (ob : OutBuf) : (fuel item_pos : Nat) → St (InBuf × Nat) Bool
  | 0, _ => St.boom
  | fuel + 1, item_pos => do
    let label ← nextLabelIn ob (ob.len + 1) item_pos
    let name_label_len ← nameOctet
    if name_label_len ≠ label.1 then pure false
    else if name_label_len = 0 then pure true
    else do
      let r ← cmpLabelBytesIn ob name_label_len.toNat label.2
      match r with
      | none => pure false
      | some p => compareLoopIn ob fuel p

/-- message_render.rs:76-103 -/
def compareItemIn (ob : OutBuf) (hash : UInt32) (item : OffSetItem) : St (InBuf × Nat) Bool := fun s =>
  if item.hash ≠ hash ∨ item.len ≠ UInt8.ofNat s.1.len then (.ok false, s)
  else compareLoopIn ob (s.1.len + 1) item.pos.toNat s

/-- message_render.rs:146-150 -/
def findItemsIn (ob : OutBuf) (hash : UInt32) : List OffSetItem → St (InBuf × Nat) UInt16
  | [] => pure NO_OFFSET
  | item :: rest => do
    let m ← compareItemIn ob hash item
    if m then pure item.pos else findItemsIn ob hash rest

/-- `find_offset` message_render.rs:138-152, looking at `k` octets of the message at most -/
def find_offset_in (k : Nat) (r : Render) (name : List UInt8) (hash : UInt32) : Res UInt16 := do
  let bucket := (hash % 64).toNat
  let items ← idx r.table bucket
  let count ← idx r.item_counts bucket
  let items ← slice items 0 count
  (findItemsIn r.buffer hash items (InBuf.new name, k)).1

/-- first loop of `write_name` (message_render.rs:170-192): for a rest of the name of `n` octets the search may look at `3 n + 3` octets of
the message -/
def scanLoopIn (name : Name) (compress : Bool) : (k label_uncompressed level : Nat) → St Render (Nat × UInt16)
  | 0, lu, _ => pure (lu, NO_OFFSET)
  | k + 1, lu, level0 => do
    let level ← St.lift (if lu > 0 then cadd8 level0 1 else .ok level0)
    let l1 ← St.lift (cadd8 level 1)
    if l1 = name.label_count % 256 then pure (lu + 1, NO_OFFSET)
    else do
      let d ← St.lift (refData name level)
      let r ← St.get
      let _ ← St.lift (idx r.label_hashes lu)
      St.put { r with label_hashes := r.label_hashes.set lu (hashBytes d) }
      if compress then do
        let r ← St.get
        let offset ← St.lift (find_offset_in (3 * d.length + 3) r d (hashBytes d))
        if offset ≠ NO_OFFSET then pure (lu, offset) else scanLoopIn name compress k (lu + 1) level
      else scanLoopIn name compress k (lu + 1) level

/-- `write_name` message_render.rs:165-224 -/
def write_name_in (name : Name) (compress : Bool) : St Render Unit := do
  let (lu, offset) ← scanLoopIn name compress name.label_count 0 0
  let r ← St.get
  let name_pos := r.buffer.len
  emitName name compress lu offset
  registerLoop lu 0 name_pos name.len

end Render
end R53
