import Verif.Model.Name
/-!
# Model of `message_render.rs`

`u16` positions are `Nat` with the casts and overflow checks written out.
-/
namespace R53

/-- message_render.rs:6 -/
def MAX_COMPRESS_POINTER : Nat := 0x3fff
/-- message_render.rs:7 -/
def HASH_SEED : UInt32 := 0x9e3779b9
/-- message_render.rs:117 -/
def BUCKETS : Nat := 64
/-- message_render.rs:118 -/
def RESERVED_ITEMS : Nat := 16
/-- message_render.rs:119 -/
def NO_OFFSET : UInt16 := 65535
/-- name.rs:25 -/
def COMPRESS_POINTER_MARK8 : UInt8 := 0xc0
/-- name.rs:26 -/
def COMPRESS_POINTER_MARK16 : UInt16 := 0xc000

/-- `OffSetItem(u64)` message_render.rs:9-10 -/
abbrev OffSetItem := UInt64

namespace OffSetItem
/-- message_render.rs:13-15 -/
def new (len : UInt8) (pos : UInt16) (hash : UInt32) : OffSetItem :=
  ((hash.toUInt64 <<< 32) ||| (pos.toUInt64 <<< 16)) ||| len.toUInt64
/-- message_render.rs:18-20 -/
def len (i : OffSetItem) : UInt8 := (i &&& 0xff).toUInt8
/-- message_render.rs:23-25 -/
def pos (i : OffSetItem) : UInt16 := ((i &&& 0xffff0000) >>> 16).toUInt16
/-- message_render.rs:28-30 -/
def hash (i : OffSetItem) : UInt32 := (i >>> 32).toUInt32
end OffSetItem

/-- `MessageRender` message_render.rs:121-126 -/
structure Render where
  buffer : OutBuf
  table : List (List OffSetItem)
  item_counts : List Nat
  label_hashes : List UInt32
deriving DecidableEq, Repr

namespace Render

/-- message_render.rs:129-136 -/
def new (backing : List UInt8) : Render :=
  ⟨OutBuf.new backing, List.replicate BUCKETS (List.replicate RESERVED_ITEMS 0), List.replicate BUCKETS 0,
    List.replicate MAX_LABEL_COUNT 0⟩

/-- `NameRef::raw_data` message_render.rs:60-63 -/
def refData (name : Name) (level : Nat) : Res (List UInt8) := do
  let o ← idx name.offsets level
  slice name.raw o name.raw.length

/-- `NameRef::hash` message_render.rs:65-72 -/
def hashBytes (d : List UInt8) : UInt32 :=
  d.foldl (fun hash c => hash ^^^ (((c.toUInt32 + HASH_SEED) + (hash <<< 6)) + (hash >>> 2))) 0

/-- the pointer loop of `next_label` (message_render.rs:106-112). `fuel` bounds the iterations: more than
`len + 1` of them would revisit a position and never end; running out stands for that (`panic`). -/
def nextLabel (ob : OutBuf) : (fuel next_pos : Nat) → Res (UInt8 × Nat)
  | 0, _ => .panic
  | fuel + 1, next_pos => do
    let b ← ob.at_ next_pos
    if b &&& COMPRESS_POINTER_MARK8 = COMPRESS_POINTER_MARK8 then do
      let nb ← ob.at_ (next_pos + 1)
      nextLabel ob fuel ((b &&& ~~~ COMPRESS_POINTER_MARK8).toNat * 256 + nb.toNat)
    else pure (b, (next_pos + 1) % 65536)

/-- the octets of one label (message_render.rs:91-99): `none` on a mismatch, else the next `item_pos`
(the `u16` increment is checked). -/
def cmpLabelBytes (ob : OutBuf) : (n item_pos : Nat) → St InBuf (Option Nat)
  | 0, item_pos => pure (some item_pos)
  | n + 1, item_pos => do
    let ch1 ← St.lift (ob.at_ item_pos)
    let ch2 ← InBuf.read_u8
    if ch1 ≠ ch2 then pure none
    else if item_pos + 1 < 65536 then cmpLabelBytes ob n (item_pos + 1)
    else St.boom

/-- `NameComparator::compare` after the first test (message_render.rs:81-101). Every iteration reads at
least one octet of the name, so `fuel` = its length + 1 is never exhausted. -/
def compareLoop (ob : OutBuf) : (fuel item_pos : Nat) → St InBuf Bool
  | 0, _ => St.boom
  | fuel + 1, item_pos => do
    let label ← St.lift (nextLabel ob (ob.len + 1) item_pos)
    let name_label_len ← InBuf.read_u8
    if name_label_len ≠ label.1 then pure false
    else if name_label_len = 0 then pure true
    else do
      let r ← cmpLabelBytes ob name_label_len.toNat label.2
      match r with
      | none => pure false
      | some p => compareLoop ob fuel p

/-- `NameComparator::compare` message_render.rs:76-103 -/
def compareItem (ob : OutBuf) (hash : UInt32) (item : OffSetItem) : St InBuf Bool := fun nb =>
  if item.hash ≠ hash ∨ item.len ≠ UInt8.ofNat nb.len then (.ok false, nb)
  else compareLoop ob (nb.len + 1) item.pos.toNat nb

/-- the `for` loop of `find_offset` (message_render.rs:146-150); the name buffer is shared by all items -/
def findItems (ob : OutBuf) (hash : UInt32) : List OffSetItem → St InBuf UInt16
  | [] => pure NO_OFFSET
  | item :: rest => do
    let m ← compareItem ob hash item
    if m then pure item.pos else findItems ob hash rest

/-- `find_offset` message_render.rs:138-152 -/
def find_offset (r : Render) (name : List UInt8) (hash : UInt32) : Res UInt16 := do
  let bucket := (hash % 64).toNat
  let items ← idx r.table bucket
  let count ← idx r.item_counts bucket
  let items ← slice items 0 count
  (findItems r.buffer hash items (InBuf.new name)).1

/-- `add_offset` message_render.rs:154-163 -/
def add_offset (r : Render) (hash : UInt32) (offset : UInt16) (len : UInt8) : Res Render := do
  let bucket := (hash % 64).toNat
  let count ← idx r.item_counts bucket
  if count + 1 = RESERVED_ITEMS then pure r
  else do
    let items ← idx r.table bucket
    let _ ← idx items count
    pure { r with
      table := r.table.set bucket (items.set count (OffSetItem.new len offset hash))
      item_counts := r.item_counts.set bucket (count + 1) }

/-- first loop of `write_name` (message_render.rs:170-192); `k` = `label_count - label_uncompressed`.
Returns `label_uncompressed` and `offset`. -/
def scanLoop (name : Name) (compress : Bool) : (k label_uncompressed level : Nat) → St Render (Nat × UInt16)
  | 0, lu, _ => pure (lu, NO_OFFSET)
  | k + 1, lu, level0 => do
    let level ← St.lift (if lu > 0 then cadd8 level0 1 else .ok level0)
    let l1 ← St.lift (cadd8 level 1)
    if l1 = name.label_count % 256 then pure (lu + 1, NO_OFFSET)
    else do
      let d ← St.lift (refData name level)
      let r ← St.get
      let _ ← St.lift (idx r.label_hashes lu)
      St.put { r with label_hashes := r.label_hashes.set lu (hashBytes d) }
      if compress then do
        let r ← St.get
        let offset ← St.lift (find_offset r d (hashBytes d))
        if offset ≠ NO_OFFSET then pure (lu, offset) else scanLoop name compress k (lu + 1) level
      else scanLoop name compress k (lu + 1) level

/-- a method of the buffer field (message_render.rs:226-281) -/
def onBuffer {α : Type} (m : St OutBuf α) : St Render α := fun r =>
  match m r.buffer with
  | (x, b) => (x, { r with buffer := b })

/-- last loop of `write_name` (message_render.rs:209-222); `k` iterations left, `i` the index. -/
def registerLoop : (k i name_pos name_len : Nat) → St Render Unit
  | 0, _, _, _ => pure ()
  | k + 1, i, name_pos, name_len => do
    let r ← St.get
    let label_len ← St.lift (r.buffer.at_ name_pos)
    if label_len = 0 then pure ()
    else if name_pos > MAX_COMPRESS_POINTER then pure ()
    else do
      let hash ← St.lift (idx r.label_hashes i)
      let r ← St.lift (add_offset r hash (UInt16.ofNat name_pos) (UInt8.ofNat name_len))
      St.put r
      let step ← St.lift (cadd8 label_len.toNat 1)
      let name_len ← St.lift (csub name_len step)
      registerLoop k (i + 1) (name_pos + step) name_len

/-- the labels `write_name` writes (message_render.rs:195-201) -/
def emitLabels (name : Name) (compress : Bool) (lu : Nat) : St Render Unit :=
  if compress = false ∨ lu = name.label_count then onBuffer (OutBuf.write_bytes name.raw)
  else if lu > 0 then do
    let pos ← St.lift (idx name.offsets lu)
    let d ← St.lift (slice name.raw 0 pos)
    onBuffer (OutBuf.write_bytes d)
  else pure ()

/-- the pointer `write_name` writes (message_render.rs:203-206) -/
def emitPointer (compress : Bool) (offset : UInt16) : St Render Unit :=
  if compress = true ∧ offset ≠ NO_OFFSET then onBuffer (OutBuf.write_u16 (offset ||| COMPRESS_POINTER_MARK16))
  else pure ()

/-- the part of `write_name` that writes octets (message_render.rs:195-206) -/
def emitName (name : Name) (compress : Bool) (lu : Nat) (offset : UInt16) : St Render Unit := do
  emitLabels name compress lu
  emitPointer compress offset

/-- `write_name` message_render.rs:165-224 -/
def write_name (name : Name) (compress : Bool) : St Render Unit := do
  let (lu, offset) ← scanLoop name compress name.label_count 0 0
  let r ← St.get
  let name_pos := r.buffer.len
  emitName name compress lu offset
  registerLoop lu 0 name_pos name.len

/-- message_render.rs:226-228 -/
def len (r : Render) : Nat := r.buffer.len
/-- message_render.rs:230-232 -/
def is_empty (r : Render) : Bool := r.buffer.len == 0
/-- message_render.rs:234-236 -/
def skip (n : Nat) : St Render Unit := onBuffer (OutBuf.skip n)
/-- message_render.rs:238-240 -/
def write_u8 (d : UInt8) : St Render Unit := onBuffer (OutBuf.write_u8 d)
/-- message_render.rs:242-244 -/
def write_u8_at (p : Nat) (d : UInt8) : St Render Unit := onBuffer (OutBuf.write_u8_at p d)
/-- message_render.rs:246-248 -/
def write_u16 (d : UInt16) : St Render Unit := onBuffer (OutBuf.write_u16 d)
/-- message_render.rs:250-252 -/
def write_u16_at (p : Nat) (d : UInt16) : St Render Unit := onBuffer (OutBuf.write_u16_at p d)
/-- message_render.rs:254-256 -/
def write_u32 (d : UInt32) : St Render Unit := onBuffer (OutBuf.write_u32 d)
/-- message_render.rs:258-260 -/
def write_bytes (d : List UInt8) : St Render Unit := onBuffer (OutBuf.write_bytes d)
/-- message_render.rs:262-264 -/
def truncate (p : Nat) : St Render Unit := onBuffer (OutBuf.truncate p)

/-- message_render.rs:267-272 -/
def reset (r : Render) : Render :=
  ⟨r.buffer.reset, r.table.map (fun v => List.replicate v.length 0), List.replicate r.item_counts.length 0,
    List.replicate r.label_hashes.length 0⟩

/-- message_render.rs:274-276 -/
def data (r : Render) : List UInt8 := r.buffer.contents

end Render
end R53
