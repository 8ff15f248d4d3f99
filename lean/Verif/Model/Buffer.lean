import Verif.Basic
/-!
# Model of `util/input_buffer.rs` and `util/output_buffer.rs`
-/
namespace R53

/-- `InputBuffer` (input_buffer.rs:3-7). The Rust `len` field always equals `data.len()`
(set only in `new` and `set_data`, lines 10-22) and is modelled as `data.length`. -/
structure InBuf where
  data : List UInt8
  pos : Nat
deriving DecidableEq, Repr

namespace InBuf

/-- input_buffer.rs:10-16 -/
def new (d : List UInt8) : InBuf := ⟨d, 0⟩
/-- input_buffer.rs:18-22 -/
def set_data (_b : InBuf) (d : List UInt8) : InBuf := ⟨d, 0⟩
/-- input_buffer.rs:24-26 -/
def len (b : InBuf) : Nat := b.data.length
/-- input_buffer.rs:28-30 -/
def is_empty (b : InBuf) : Bool := b.len == 0
/-- input_buffer.rs:32-34 -/
def position (b : InBuf) : Nat := b.pos

/-- input_buffer.rs:36-43 -/
def set_position (p : Nat) : St InBuf Unit := fun b =>
  if p ≤ b.len then (.ok (), { b with pos := p }) else (.err, b)

/-- input_buffer.rs:45-53; the index is checked (`idx`) as in Rust. -/
def read_u8 : St InBuf UInt8 := fun b =>
  if b.pos < b.len then
    match idx b.data b.pos with
    | .ok n => (.ok n, { b with pos := b.pos + 1 })
    | .err => (.err, b)
    | .panic => (.panic, b)
  else (.err, b)

/-- input_buffer.rs:55-64 -/
def read_u16 : St InBuf UInt16 := fun b =>
  if b.pos + 1 < b.len then
    match (do
      let a ← idx b.data b.pos
      let c ← idx b.data (b.pos + 1)
      pure ((a.toUInt16 <<< 8) ||| c.toUInt16) : Res UInt16) with
    | .ok n => (.ok n, { b with pos := b.pos + 2 })
    | .err => (.err, b)
    | .panic => (.panic, b)
  else (.err, b)

/-- input_buffer.rs:66-77 -/
def read_u32 : St InBuf UInt32 := fun b =>
  if b.pos + 3 < b.len then
    match (do
      let a ← idx b.data b.pos
      let c ← idx b.data (b.pos + 1)
      let d ← idx b.data (b.pos + 2)
      let e ← idx b.data (b.pos + 3)
      pure ((((a.toUInt32 <<< 24) ||| (c.toUInt32 <<< 16)) ||| (d.toUInt32 <<< 8)) ||| e.toUInt32)
        : Res UInt32) with
    | .ok n => (.ok n, { b with pos := b.pos + 4 })
    | .err => (.err, b)
    | .panic => (.panic, b)
  else (.err, b)

/-- input_buffer.rs:79-88 -/
def read_bytes (n : Nat) : St InBuf (List UInt8) := fun b =>
  if b.pos + n ≤ b.len then
    match slice b.data b.pos (b.pos + n) with
    | .ok d => (.ok d, { b with pos := b.pos + n })
    | .err => (.err, b)
    | .panic => (.panic, b)
  else (.err, b)

end InBuf

/-- `OutputBuffer` (output_buffer.rs:3-6): a fixed backing slice `data` (its length is the
capacity) and the number `len` of octets in use. -/
structure OutBuf where
  data : List UInt8
  len : Nat
deriving DecidableEq, Repr

/-- `self.data[pos..pos+d.len()].copy_from_slice(d)` (output_buffer.rs:104) -/
def overwrite (l : List UInt8) (pos : Nat) (d : List UInt8) : List UInt8 :=
  l.take pos ++ d ++ l.drop (pos + d.length)

namespace OutBuf

/-- output_buffer.rs:9-11 -/
def new (backing : List UInt8) : OutBuf := ⟨backing, 0⟩
/-- output_buffer.rs:24-26 -/
def capacity (b : OutBuf) : Nat := b.data.length

/-- output_buffer.rs:28-34 -/
def at_ (b : OutBuf) (pos : Nat) : Res UInt8 := if pos < b.len then idx b.data pos else .err

/-- output_buffer.rs:36-43 (strict comparison, as in the source) -/
def skip (n : Nat) : St OutBuf Unit := fun b =>
  if b.len + n < b.capacity then (.ok (), { b with len := b.len + n }) else (.err, b)

/-- store one octet `self.data[pos] = d` (panics out of range) (output_buffer.rs:48, 58, 68-69, 79-80, 90-93) -/
def store (b : OutBuf) (pos : Nat) (d : UInt8) : Res OutBuf :=
  if pos < b.data.length then .ok { b with data := b.data.set pos d } else .panic

/-- output_buffer.rs:45-54 -/
def write_u8 (d : UInt8) : St OutBuf Unit := fun b =>
  if b.len < b.capacity then
    match b.store b.len d with
    | .ok b' => (.ok (), { b' with len := b'.len + 1 })
    | .err => (.err, b)
    | .panic => (.panic, b)
  else (.err, b)

/-- output_buffer.rs:56-63 -/
def write_u8_at (pos : Nat) (d : UInt8) : St OutBuf Unit := fun b =>
  if pos < b.len then
    match b.store pos d with
    | .ok b' => (.ok (), b')
    | .err => (.err, b)
    | .panic => (.panic, b)
  else (.err, b)

/-- output_buffer.rs:65-75 -/
def write_u16 (d : UInt16) : St OutBuf Unit := fun b =>
  let pos := b.len
  if pos + 2 ≤ b.capacity then
    match (do
      let b ← b.store pos ((d &&& 0xff00) >>> 8).toUInt8
      let b ← b.store (pos + 1) (d &&& 0x00ff).toUInt8
      pure b : Res OutBuf) with
    | .ok b' => (.ok (), { b' with len := b'.len + 2 })
    | .err => (.err, b)
    | .panic => (.panic, b)
  else (.err, b)

/-- output_buffer.rs:77-85 -/
def write_u16_at (pos : Nat) (d : UInt16) : St OutBuf Unit := fun b =>
  if pos + 2 ≤ b.len then
    match (do
      let b ← b.store pos ((d &&& 0xff00) >>> 8).toUInt8
      let b ← b.store (pos + 1) (d &&& 0x00ff).toUInt8
      pure b : Res OutBuf) with
    | .ok b' => (.ok (), b')
    | .err => (.err, b)
    | .panic => (.panic, b)
  else (.err, b)

/-- output_buffer.rs:87-99 -/
def write_u32 (d : UInt32) : St OutBuf Unit := fun b =>
  let pos := b.len
  if pos + 4 ≤ b.capacity then
    match (do
      let b ← b.store pos ((d &&& 0xff000000) >>> 24).toUInt8
      let b ← b.store (pos + 1) ((d &&& 0x00ff0000) >>> 16).toUInt8
      let b ← b.store (pos + 2) ((d &&& 0x0000ff00) >>> 8).toUInt8
      let b ← b.store (pos + 3) (d &&& 0x000000ff).toUInt8
      pure b : Res OutBuf) with
    | .ok b' => (.ok (), { b' with len := b'.len + 4 })
    | .err => (.err, b)
    | .panic => (.panic, b)
  else (.err, b)

/-- output_buffer.rs:101-110; `copy_from_slice` on the sub-slice is `overwrite`, in range by the test. -/
def write_bytes (d : List UInt8) : St OutBuf Unit := fun b =>
  if b.len + d.length ≤ b.capacity then
    (.ok (), ⟨overwrite b.data b.len d, b.len + d.length⟩)
  else (.err, b)

/-- output_buffer.rs:112-119 (strict comparison, as in the source) -/
def truncate (pos : Nat) : St OutBuf Unit := fun b =>
  if pos < b.len then (.ok (), { b with len := pos }) else (.err, b)

/-- output_buffer.rs:121-123 -/
def reset (b : OutBuf) : OutBuf := { b with len := 0 }

/-- output_buffer.rs:125-127: the visible octets (`&self.data[..self.len]`, in range by the
invariant `len ≤ capacity`). -/
def contents (b : OutBuf) : List UInt8 := b.data.take b.len

end OutBuf
end R53
