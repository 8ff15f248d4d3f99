import Verif.Model.Name
import Verif.Model.Render
/-!
# Functions whose arguments can overflow `usize`

Elsewhere in the model `usize` is `Nat`: the numbers there are lengths of things in memory, and their sums stay far below `2^64`.
A few public functions add a number of the caller's to such a length. They are modelled once more here, with the arithmetic of a 64-bit
target in both build profiles: with overflow checks (`debug`) an overflow panics, without (`release`) it wraps around.
-/
namespace R53

/-- `usize` holds the numbers below this (64-bit target; input_buffer.rs:80, output_buffer.rs:37, 78, name.rs:421, label_sequence.rs:59) -/
def USIZE : Nat := 18446744073709551616

/-- `a + b` on `usize` (input_buffer.rs:80, output_buffer.rs:37, 78, name.rs:421, 425, label_sequence.rs:59, 63) -/
def addW (m : Build) (a b : Nat) : Res Nat :=
  if a + b < USIZE then .ok (a + b) else match m with
    | .debug => .panic
    | .release => .ok (a + b - USIZE)

/-- `a - b` on `usize` (name.rs:454, label_sequence.rs:63) -/
def subW (m : Build) (a b : Nat) : Res Nat :=
  if b ≤ a then .ok (a - b) else match m with
    | .debug => .panic
    | .release => .ok (a + USIZE - b)

/-- `a + b` on `u8` (label_sequence.rs:64-65) -/
def add8 (m : Build) (a b : Nat) : Res Nat :=
  if a + b < 256 then .ok (a + b) else match m with
    | .debug => .panic
    | .release => .ok (a + b - 256)

/-- `a - b` on `u8` (label_sequence.rs:66, 75, 80, 85) -/
def sub8 (m : Build) (a b : Nat) : Res Nat :=
  if b ≤ a then .ok (a - b) else match m with
    | .debug => .panic
    | .release => .ok (a + 256 - b)

/-- input_buffer.rs:79-88 -/
def InBuf.read_bytes_w (m : Build) (n : Nat) : St InBuf (List UInt8) := fun b =>
  match addW m b.pos n with
  | .ok e =>
    if e ≤ b.len then
      match slice b.data b.pos e with
      | .ok d => (.ok d, { b with pos := e })
      | .err => (.err, b)
      | .panic => (.panic, b)
    else (.err, b)
  | .err => (.err, b)
  | .panic => (.panic, b)

/-- output_buffer.rs:36-43 (the sum is computed twice, with the same result) -/
def OutBuf.skip_w (m : Build) (n : Nat) : St OutBuf Unit := fun b =>
  match addW m b.len n with
  | .ok e => if e < b.capacity then (.ok (), { b with len := e }) else (.err, b)
  | .err => (.err, b)
  | .panic => (.panic, b)

/-- output_buffer.rs:77-85 -/
def OutBuf.write_u16_at_w (m : Build) (pos : Nat) (d : UInt16) : St OutBuf Unit := fun b =>
  match addW m pos 2 with
  | .ok e =>
    if e ≤ b.len then
      match (do
        let b ← b.store pos ((d &&& 0xff00) >>> 8).toUInt8
        let p ← addW m pos 1
        let b ← b.store p (d &&& 0x00ff).toUInt8
        pure b : Res OutBuf) with
      | .ok b' => (.ok (), b')
      | .err => (.err, b)
      | .panic => (.panic, b)
    else (.err, b)
  | .err => (.err, b)
  | .panic => (.panic, b)

/-- message_render.rs:234-236 -/
def Render.skip_w (m : Build) (n : Nat) : St Render Unit := Render.onBuffer (OutBuf.skip_w m n)

/-- message_render.rs:250-252 -/
def Render.write_u16_at_w (m : Build) (pos : Nat) (d : UInt16) : St Render Unit := Render.onBuffer (OutBuf.write_u16_at_w m pos d)

/-- `Name::split` name.rs:417-451; `a..=b` is the slice up to `b + 1` -/
def Name.split_w (m : Build) (n : Name) (start_label label_count0 : Nat) : Res Name := do
  let max := n.label_count
  ensure (start_label < max)
  let sum ← addW m start_label label_count0
  let label_count := if sum > max then max - start_label else label_count0
  let sum ← addW m start_label label_count
  if sum = n.label_count then do
    let first ← idx n.offsets start_label
    let offsets := n.offsets.drop start_label
    let start_pos ← idx offsets 0
    let _ ← csub n.len start_pos
    let raw ← slice n.raw start_pos n.raw.length
    let offs ← LabelSequence.subAll first (offsets.take label_count)
    pure ⟨raw, offs ++ offsets.drop label_count⟩
  else do
    let offsets ← slice n.offsets start_label (sum + 1)
    let o0 ← idx offsets 0
    let oe ← idx offsets label_count
    let cap ← csub oe o0
    let _ ← cadd8 cap 1
    let raw ← slice n.raw o0 oe
    let first ← idx n.offsets start_label
    let offs ← LabelSequence.subAll first (offsets.take (label_count + 1))
    pure ⟨raw ++ [0], offs ++ offsets.drop (label_count + 1)⟩

/-- `Name::parent` name.rs:453-455 -/
def Name.parent_w (m : Build) (n : Name) (level : Nat) : Res Name := do
  let k ← subW m n.label_count level
  n.split_w m level k

/-- subtract a `u8` from every offset (label_sequence.rs:75, 80, 85) -/
def LabelSequence.subAll8 (m : Build) (x : Nat) : List Nat → Res (List Nat)
  | [] => .ok []
  | v :: vs => do
    let v' ← sub8 m v x
    let vs' ← subAll8 m x vs
    pure (v' :: vs')

/-- `LabelSequence::split` label_sequence.rs:51-90 -/
def LabelSequence.split_w (m : Build) (s : LabelSequence) (start_label label_count0 : Nat) : Res (LabelSequence × LabelSequence) := do
  let max := s.label_count
  ensure (start_label < max ∧ label_count0 > 0)
  let sum ← addW m start_label label_count0
  let label_count := if sum > max then max - start_label else label_count0
  let sum ← addW m start_label label_count
  let last_label ← subW m sum 1
  let ol ← idx s.offsets last_label
  let b ← idx s.data ol
  let last_label_len ← add8 m b.toNat 1
  let data_length ← add8 m ol last_label_len
  let ofs ← idx s.offsets start_label
  let data_offset ← sub8 m data_length ofs
  let (data, data') ← drain s.data ofs data_length
  let (offsets, offsets') ← drain s.offsets start_label (last_label + 1)
  if start_label = 0 then do
    let offsets' ← subAll8 m data_offset offsets'
    pure (⟨data, offsets⟩, ⟨data', offsets'⟩)
  else do
    let tail ← subAll8 m data_offset (offsets'.drop start_label)
    let cur ← idx offsets 0
    let offsets ← subAll8 m cur offsets
    pure (⟨data, offsets⟩, ⟨data', offsets'.take start_label ++ tail⟩)

end R53
