import Verif.Proofs.Buffer
/-!
# Properties C20, C21, C22: input cursor and output buffer
-/
namespace R53

/-! ## C20 -/

/-- the operations of `InputBuffer` that move the cursor -/
inductive ReadOp where
  | u8 | u16 | u32 | bytes (n : Nat) | seek (p : Nat)

/-- the value an operation returned, erased to `Unit` -/
def ReadOp.step : ReadOp → St InBuf Unit
  | .u8 => fun b => match InBuf.read_u8 b with | (r, b') => (r.map' (fun _ => ()), b')
  | .u16 => fun b => match InBuf.read_u16 b with | (r, b') => (r.map' (fun _ => ()), b')
  | .u32 => fun b => match InBuf.read_u32 b with | (r, b') => (r.map' (fun _ => ()), b')
  | .bytes n => fun b => match InBuf.read_bytes n b with | (r, b') => (r.map' (fun _ => ()), b')
  | .seek p => InBuf.set_position p

/-- run any history of reads, going on after failures -/
def readRun (ops : List ReadOp) (b : InBuf) : InBuf := ops.foldl (fun b op => (op.step b).2) b

theorem c20_read_u8 (b b' : InBuf) (v : UInt8) : InBuf.read_u8 b = (.ok v, b') ↔
    (∃ rest, b.data.drop b.pos = v :: rest) ∧ b' = ⟨b.data, b.pos + 1⟩ := by
  rw [InBuf.read_u8_eq]
  by_cases h : b.pos < b.data.length
  · rw [List.getElem?_eq_getElem h, List.drop_eq_getElem_cons h]
    constructor
    · intro e; simp only [Prod.mk.injEq, Res.ok.injEq] at e; exact ⟨⟨_, by rw [e.1]⟩, e.2.symm⟩
    · rintro ⟨⟨rest, e⟩, rfl⟩; simp only [List.cons.injEq] at e; rw [e.1]
  · rw [List.getElem?_eq_none (by omega), List.drop_of_length_le (by omega)]; simp

theorem c20_read_u16 (b b' : InBuf) (v : UInt16) : InBuf.read_u16 b = (.ok v, b') ↔
    (∃ rest, b.data.drop b.pos = be16 v ++ rest) ∧ b' = ⟨b.data, b.pos + 2⟩ := by
  constructor
  · intro h
    rw [InBuf.read_u16_eq] at h
    split at h
    · rename_i hl
      simp only [Prod.mk.injEq, Res.ok.injEq] at h
      obtain ⟨h1, h2⟩ := h
      refine ⟨⟨b.data.drop (b.pos + 2), ?_⟩, h2.symm⟩
      rw [← h1, be16_join, List.drop_eq_getElem_cons (by omega), List.drop_eq_getElem_cons (by omega)]
      simp [getElem!_pos b.data b.pos (by omega), getElem!_pos b.data (b.pos + 1) (by omega)]
    · simp at h
  · rintro ⟨⟨rest, h⟩, rfl⟩
    exact InBuf.read_u16_be h

theorem c20_read_u32 (b b' : InBuf) (v : UInt32) : InBuf.read_u32 b = (.ok v, b') ↔
    (∃ rest, b.data.drop b.pos = be32 v ++ rest) ∧ b' = ⟨b.data, b.pos + 4⟩ := by
  constructor
  · intro h
    rw [InBuf.read_u32_eq] at h
    split at h
    · rename_i hl
      simp only [Prod.mk.injEq, Res.ok.injEq] at h
      obtain ⟨h1, h2⟩ := h
      refine ⟨⟨b.data.drop (b.pos + 4), ?_⟩, h2.symm⟩
      rw [← h1, be32_join, List.drop_eq_getElem_cons (by omega), List.drop_eq_getElem_cons (by omega),
        List.drop_eq_getElem_cons (by omega), List.drop_eq_getElem_cons (by omega)]
      simp [getElem!_pos b.data b.pos (by omega), getElem!_pos b.data (b.pos + 1) (by omega),
        getElem!_pos b.data (b.pos + 2) (by omega), getElem!_pos b.data (b.pos + 3) (by omega)]
    · simp at h
  · rintro ⟨⟨rest, h⟩, rfl⟩
    exact InBuf.read_u32_be h

theorem c20_read_bytes (b b' : InBuf) (hb : b.pos ≤ b.data.length) (n : Nat) (d : List UInt8) :
    InBuf.read_bytes n b = (.ok d, b') ↔
    (∃ rest, b.data.drop b.pos = d ++ rest) ∧ d.length = n ∧ b' = ⟨b.data, b.pos + n⟩ := by
  constructor
  · intro h
    rw [InBuf.read_bytes_eq] at h
    split at h
    · simp only [Prod.mk.injEq, Res.ok.injEq] at h
      obtain ⟨rfl, rfl⟩ := h
      refine ⟨⟨(b.data.drop b.pos).drop n, (List.take_append_drop n _).symm⟩, by simp; omega, rfl⟩
    · simp at h
  · rintro ⟨⟨rest, h⟩, rfl, rfl⟩
    exact InBuf.read_bytes_be h hb

/-- A read needs its octets: with too few left it returns `Err`; it never panics; and whenever it
does not succeed the cursor and the data are untouched. -/
theorem c20_fail_unchanged (op : ReadOp) (b : InBuf) :
    (op.step b).1 ≠ .panic ∧ ((op.step b).1 = .err → (op.step b).2 = b) ∧ (op.step b).2.data = b.data := by
  cases op with
  | u8 => simp only [ReadOp.step, InBuf.read_u8_eq]; cases b.data[b.pos]? <;> simp [Res.map']
  | u16 => simp only [ReadOp.step, InBuf.read_u16_eq]; split <;> simp [Res.map']
  | u32 => simp only [ReadOp.step, InBuf.read_u32_eq]; split <;> simp [Res.map']
  | bytes n => simp only [ReadOp.step, InBuf.read_bytes_eq]; split <;> simp [Res.map']
  | seek p => simp only [ReadOp.step, InBuf.set_position]; split <;> simp

/-- when it succeeds exactly: enough octets must remain -/
theorem c20_ok_iff (op : ReadOp) (b : InBuf) :
    (op.step b).1 = .ok () ↔ (match op with
      | .u8 => b.pos + 1 | .u16 => b.pos + 2 | .u32 => b.pos + 4 | .bytes n => b.pos + n | .seek p => p) ≤ b.data.length := by
  cases op with
  | u8 =>
    simp only [ReadOp.step, InBuf.read_u8_eq]
    by_cases h : b.pos < b.data.length
    · rw [List.getElem?_eq_getElem h]; simp [Res.map']; omega
    · rw [List.getElem?_eq_none (by omega)]; simp [Res.map']; omega
  | u16 => simp only [ReadOp.step, InBuf.read_u16_eq]; split <;> simp_all [Res.map']
  | u32 => simp only [ReadOp.step, InBuf.read_u32_eq]; split <;> simp_all [Res.map']
  | bytes n => simp only [ReadOp.step, InBuf.read_bytes_eq]; split <;> simp_all [Res.map']
  | seek p =>
    simp only [ReadOp.step, InBuf.set_position]
    by_cases hp : p ≤ b.len
    · rw [if_pos hp]; simpa [InBuf.len] using hp
    · rw [if_neg hp]; simp [InBuf.len] at hp ⊢; omega

theorem c20_step_pos (op : ReadOp) (b : InBuf) (h : b.pos ≤ b.data.length) :
    (op.step b).2.pos ≤ (op.step b).2.data.length := by
  cases op with
  | u8 =>
    simp only [ReadOp.step, InBuf.read_u8_eq]
    by_cases h' : b.pos < b.data.length
    · rw [List.getElem?_eq_getElem h']; simp; omega
    · rw [List.getElem?_eq_none (by omega)]; simpa
  | u16 => simp only [ReadOp.step, InBuf.read_u16_eq]; split <;> simp_all
  | u32 => simp only [ReadOp.step, InBuf.read_u32_eq]; split <;> simp_all
  | bytes n => simp only [ReadOp.step, InBuf.read_bytes_eq]; split <;> simp_all
  | seek p =>
    simp only [ReadOp.step, InBuf.set_position]
    by_cases hp : p ≤ b.len
    · rw [if_pos hp]; simpa [InBuf.len] using hp
    · rw [if_neg hp]; simp [InBuf.len] at hp ⊢; omega

/-- **C20** over histories: from a new buffer, after any sequence of reads and seeks (successful or
not) the cursor is inside the buffer and the data are the original ones. -/
theorem c20_history (d : List UInt8) (ops : List ReadOp) :
    (readRun ops (InBuf.new d)).pos ≤ d.length ∧ (readRun ops (InBuf.new d)).data = d := by
  suffices ∀ b : InBuf, b.pos ≤ b.data.length →
      (readRun ops b).pos ≤ b.data.length ∧ (readRun ops b).data = b.data from
    this (InBuf.new d) (by simp [InBuf.new])
  induction ops with
  | nil => intro b h; exact ⟨h, rfl⟩
  | cons op ops ih =>
    intro b h
    have h2 := ih (op.step b).2 (c20_step_pos op b h)
    rw [(c20_fail_unchanged op b).2.2] at h2
    exact h2

example : (readRun [.u16, .bytes 9, .u32, .u8] (InBuf.new [1, 2, 3, 4, 5, 6])) = ⟨[1, 2, 3, 4, 5, 6], 6⟩ := by
  decide

/-! ## C21 -/

/-- the operations of `OutputBuffer` -/
inductive WriteOp where
  | u8 (d : UInt8) | u16 (d : UInt16) | u32 (d : UInt32) | bytes (d : List UInt8)
  | skip (n : Nat) | u8At (p : Nat) (d : UInt8) | u16At (p : Nat) (d : UInt16) | truncate (p : Nat) | reset

def WriteOp.step : WriteOp → St OutBuf Unit
  | .u8 d => OutBuf.write_u8 d
  | .u16 d => OutBuf.write_u16 d
  | .u32 d => OutBuf.write_u32 d
  | .bytes d => OutBuf.write_bytes d
  | .skip n => OutBuf.skip n
  | .u8At p d => OutBuf.write_u8_at p d
  | .u16At p d => OutBuf.write_u16_at p d
  | .truncate p => OutBuf.truncate p
  | .reset => fun b => (.ok (), b.reset)

def writeRun (ops : List WriteOp) (b : OutBuf) : OutBuf := ops.foldl (fun b op => (op.step b).2) b

/-- the octets an appending write must append -/
def WriteOp.appended : WriteOp → Option (List UInt8)
  | .u8 d => some [d]
  | .u16 d => some (be16 d)
  | .u32 d => some (be32 d)
  | .bytes d => some d
  | _ => none

/-- positional writes: where and what -/
def WriteOp.patched : WriteOp → Option (Nat × List UInt8)
  | .u8At p d => some (p, [d])
  | .u16At p d => some (p, be16 d)
  | _ => none

/-- **C21** appending writes: exactly the octets are appended when they fit, and nothing at all
happens when they do not. -/
theorem c21_append (op : WriteOp) (d : List UInt8) (hd : op.appended = some d) (b : OutBuf)
    (_hb : b.len ≤ b.capacity) :
    if b.len + d.length ≤ b.capacity then
      (op.step b).1 = .ok () ∧ (op.step b).2.contents = b.contents ++ d ∧
        (op.step b).2.len = b.len + d.length ∧ (op.step b).2.capacity = b.capacity
    else op.step b = (.err, b) := by
  have key : op.step b = if b.len + d.length ≤ b.capacity then (.ok (), b.append d) else (.err, b) := by
    cases op <;> simp only [WriteOp.appended, Option.some.injEq, reduceCtorEq] at hd <;> subst hd
    · exact OutBuf.write_u8_eq _ _
    · exact OutBuf.write_u16_eq _ _
    · exact OutBuf.write_u32_eq _ _
    · exact OutBuf.write_bytes_eq _ _
  split
  · rename_i h
    rw [key, if_pos h]
    exact ⟨rfl, OutBuf.append_contents h, rfl, OutBuf.append_capacity h⟩
  · rename_i h
    rw [key, if_neg h]

/-- **C21** positional writes change exactly the addressed octets, which must already be in use. -/
theorem c21_patch (op : WriteOp) (p : Nat) (d : List UInt8) (hd : op.patched = some (p, d)) (b : OutBuf)
    (hb : b.len ≤ b.capacity) :
    if p + d.length ≤ b.len then
      (op.step b).1 = .ok () ∧ (op.step b).2.len = b.len ∧ (op.step b).2.capacity = b.capacity ∧
        (op.step b).2.contents = b.contents.take p ++ d ++ b.contents.drop (p + d.length)
    else op.step b = (.err, b) := by
  have key : op.step b = if p + d.length ≤ b.len then (.ok (), ⟨overwrite b.data p d, b.len⟩) else (.err, b) := by
    cases op <;> simp only [WriteOp.patched, Option.some.injEq, Prod.mk.injEq, reduceCtorEq] at hd <;>
      obtain ⟨rfl, rfl⟩ := hd
    · exact OutBuf.write_u8_at_eq _ _ _ hb
    · exact OutBuf.write_u16_at_eq _ _ _ hb
  have hc : b.capacity = b.data.length := rfl
  split
  · rename_i h
    rw [key, if_pos h]
    refine ⟨rfl, rfl, ?_, ?_⟩
    · simp only [OutBuf.capacity]; exact overwrite_length (by omega)
    · rw [OutBuf.contents_overwrite hb h]; rfl
  · rename_i h
    rw [key, if_neg h]

/-- **C21** the remaining operations: `skip` enlarges without touching earlier octets, `truncate`
keeps a prefix, `reset` empties; each fails without effect otherwise. -/
theorem c21_skip (n : Nat) (b : OutBuf) (hb : b.len ≤ b.capacity) :
    if b.len + n < b.capacity then
      (OutBuf.skip n b).1 = .ok () ∧ (OutBuf.skip n b).2.len = b.len + n ∧
        (OutBuf.skip n b).2.contents.take b.len = b.contents
    else OutBuf.skip n b = (.err, b) := by
  unfold OutBuf.skip
  split
  · rename_i h
    refine ⟨rfl, rfl, ?_⟩
    simp only [OutBuf.contents, List.take_take]; congr 1; omega
  · rfl

theorem c21_truncate (p : Nat) (b : OutBuf) (_hb : b.len ≤ b.capacity) :
    if p < b.len then
      (OutBuf.truncate p b).1 = .ok () ∧ (OutBuf.truncate p b).2.contents = b.contents.take p ∧
        (OutBuf.truncate p b).2.len = p
    else OutBuf.truncate p b = (.err, b) := by
  unfold OutBuf.truncate
  split
  · rename_i h
    refine ⟨rfl, ?_, rfl⟩
    simp only [OutBuf.contents, List.take_take]; congr 1; omega
  · rfl

theorem c21_step (op : WriteOp) (b : OutBuf) (hb : b.len ≤ b.capacity) :
    (op.step b).1 ≠ .panic ∧ (op.step b).2.len ≤ (op.step b).2.capacity ∧
      (op.step b).2.capacity = b.capacity ∧ ((op.step b).1 = .err → (op.step b).2 = b) := by
  match h1 : op.appended with
  | some d =>
    have := c21_append op d h1 b hb
    split at this
    · rename_i hl
      rw [this.1, this.2.2.1, this.2.2.2]; simp; omega
    · rw [this]; simp [hb]
  | none =>
    match h2 : op.patched with
    | some (p, d) =>
      have := c21_patch op p d h2 b hb
      split at this
      · rename_i hl
        rw [this.1, this.2.1, this.2.2.1]; simp; omega
      · rw [this]; simp [hb]
    | none =>
      cases op with
      | skip n =>
        simp only [WriteOp.step, OutBuf.skip] at hb ⊢
        by_cases hl : b.len + n < b.capacity
        · rw [if_pos hl]; simp [OutBuf.capacity] at hl ⊢; omega
        · rw [if_neg hl]; simp [hb]
      | truncate p =>
        simp only [WriteOp.step, OutBuf.truncate] at hb ⊢
        by_cases hl : p < b.len
        · rw [if_pos hl]; simp [OutBuf.capacity] at hb ⊢; omega
        · rw [if_neg hl]; simp [hb]
      | reset => simp [WriteOp.step, OutBuf.reset, OutBuf.capacity]
      | u8 d => simp [WriteOp.appended] at h1
      | u16 d => simp [WriteOp.appended] at h1
      | u32 d => simp [WriteOp.appended] at h1
      | bytes d => simp [WriteOp.appended] at h1
      | u8At p d => simp [WriteOp.patched] at h2
      | u16At p d => simp [WriteOp.patched] at h2

/-- **C21** over histories: after any sequence of operations on a new buffer the length is within
the capacity, and the next operation neither panics nor has an effect when it fails. -/
theorem c21_history (backing : List UInt8) (ops : List WriteOp) (op : WriteOp) :
    (writeRun ops (OutBuf.new backing)).len ≤ backing.length ∧
    (op.step (writeRun ops (OutBuf.new backing))).1 ≠ .panic ∧
    ((op.step (writeRun ops (OutBuf.new backing))).1 = .err →
      (op.step (writeRun ops (OutBuf.new backing))).2 = writeRun ops (OutBuf.new backing)) := by
  have inv : ∀ (ops : List WriteOp) (b : OutBuf), b.len ≤ b.capacity →
      (writeRun ops b).len ≤ (writeRun ops b).capacity ∧ (writeRun ops b).capacity = b.capacity := by
    intro ops
    induction ops with
    | nil => intro b h; exact ⟨h, rfl⟩
    | cons o ops ih =>
      intro b h
      have hs := c21_step o b h
      have h2 := ih (o.step b).2 hs.2.1
      rw [hs.2.2.1] at h2
      exact h2
  have h0 := inv ops (OutBuf.new backing) (by simp [OutBuf.new])
  have hs := c21_step op _ h0.1
  refine ⟨?_, hs.1, hs.2.2.2⟩
  rw [h0.2] at h0
  exact h0.1

example : (writeRun [.u16 0x0102, .skip 2, .u32 7, .u16At 2 0xffff, .truncate 5, .bytes [1,2,3,4,5,6]]
    (OutBuf.new (List.replicate 12 0))).contents = [1, 2, 255, 255, 0, 1, 2, 3, 4, 5, 6] := by decide

/-! ## C22 -/

/-- a value that can be written and read -/
inductive Val where
  | u8 (d : UInt8) | u16 (d : UInt16) | u32 (d : UInt32) | bytes (d : List UInt8)
deriving DecidableEq

def Val.write : Val → St OutBuf Unit
  | .u8 d => OutBuf.write_u8 d
  | .u16 d => OutBuf.write_u16 d
  | .u32 d => OutBuf.write_u32 d
  | .bytes d => OutBuf.write_bytes d

/-- read a value of the same kind (and, for octets, the same length) -/
def Val.readLike : Val → St InBuf Val
  | .u8 _ => do let v ← InBuf.read_u8; pure (.u8 v)
  | .u16 _ => do let v ← InBuf.read_u16; pure (.u16 v)
  | .u32 _ => do let v ← InBuf.read_u32; pure (.u32 v)
  | .bytes d => do let v ← InBuf.read_bytes d.length; pure (.bytes v)

def writeAll : List Val → St OutBuf Unit
  | [] => pure ()
  | v :: vs => do v.write; writeAll vs

def readAllLike : List Val → St InBuf (List Val)
  | [] => pure []
  | v :: vs => do
    let x ← v.readLike
    let xs ← readAllLike vs
    pure (x :: xs)

def Val.octets : Val → List UInt8
  | .u8 d => [d]
  | .u16 d => be16 d
  | .u32 d => be32 d
  | .bytes d => d

theorem Val.write_eq (v : Val) (b : OutBuf) :
    v.write b = if b.len + v.octets.length ≤ b.capacity then (.ok (), b.append v.octets) else (.err, b) := by
  cases v
  · exact OutBuf.write_u8_eq _ _
  · exact OutBuf.write_u16_eq _ _
  · exact OutBuf.write_u32_eq _ _
  · exact OutBuf.write_bytes_eq _ _

theorem Val.readLike_eq (v : Val) (b : InBuf) (hb : b.pos ≤ b.data.length) (rest : List UInt8)
    (h : b.data.drop b.pos = v.octets ++ rest) :
    v.readLike b = (.ok v, ⟨b.data, b.pos + v.octets.length⟩) := by
  cases v with
  | u8 d =>
    have := (c20_read_u8 b ⟨b.data, b.pos + 1⟩ d).mpr ⟨⟨rest, h⟩, rfl⟩
    simp only [Val.readLike]; rw [St.bind_ok this]; rfl
  | u16 d =>
    have := InBuf.read_u16_be h
    simp only [Val.readLike]; rw [St.bind_ok this]; rfl
  | u32 d =>
    have := InBuf.read_u32_be h
    simp only [Val.readLike]; rw [St.bind_ok this]; rfl
  | bytes d =>
    have : InBuf.read_bytes d.length b = _ := InBuf.read_bytes_be (d := d) h hb
    simp only [Val.readLike]; rw [St.bind_ok this]; rfl

theorem writeAll_contents (vs : List Val) (b b' : OutBuf) (hb : b.len ≤ b.capacity)
    (h : writeAll vs b = (.ok (), b')) :
    b'.contents = b.contents ++ vs.flatMap Val.octets ∧ b'.len ≤ b'.capacity := by
  induction vs generalizing b with
  | nil => simp [writeAll] at h; subst h; simp [hb]
  | cons v vs ih =>
    obtain ⟨_, b1, h1, h2⟩ := St.bind_ok_inv h
    rw [Val.write_eq] at h1
    split at h1
    · rename_i hl
      simp at h1; subst h1
      have hc := OutBuf.append_capacity hl
      have := ih (b.append v.octets) (by rw [hc]; simpa [OutBuf.append] using hl) h2
      rw [this.1, OutBuf.append_contents hl]
      simp [this.2]
    · simp at h1

theorem readAllLike_eq (vs : List Val) (b : InBuf) (hb : b.pos ≤ b.data.length) (rest : List UInt8)
    (h : b.data.drop b.pos = vs.flatMap Val.octets ++ rest) :
    readAllLike vs b = (.ok vs, ⟨b.data, b.pos + (vs.flatMap Val.octets).length⟩) := by
  induction vs generalizing b with
  | nil => simp [readAllLike]
  | cons v vs ih =>
    simp only [List.flatMap_cons, List.append_assoc] at h
    have h1 := Val.readLike_eq v b hb _ h
    have hl := congrArg List.length h
    simp only [List.length_drop, List.length_append] at hl
    simp only [readAllLike]
    rw [St.bind_ok h1]
    have h2 := ih ⟨b.data, b.pos + v.octets.length⟩ (by simp; omega) (by
      rw [← List.drop_drop, h]; simp)
    rw [St.bind_ok h2]
    simp [Nat.add_assoc]

/-- **C22** Whatever sequence of values was written successfully into a buffer (with any earlier
contents), reading at that place gives the same values and stops exactly where the writes ended. -/
theorem c22_write_read (vs : List Val) (b b' : OutBuf) (hb : b.len ≤ b.capacity)
    (h : writeAll vs b = (.ok (), b')) :
    readAllLike vs ⟨b'.contents, b.len⟩ = (.ok vs, ⟨b'.contents, b'.len⟩) := by
  obtain ⟨hc, hb'⟩ := writeAll_contents vs b b' hb h
  have hl := OutBuf.contents_length (b := b) hb
  have hl' := OutBuf.contents_length (b := b') hb'
  have := readAllLike_eq vs ⟨b'.contents, b.len⟩ (by simp only [hc, List.length_append]; omega) [] (by
    simp only [hc, List.append_nil]; rw [List.drop_left' hl])
  rw [this]
  have e := congrArg List.length hc
  simp only [List.length_append] at e
  simp only [Prod.mk.injEq, InBuf.mk.injEq, true_and]
  omega

/-- the writes do succeed when the octets fit -/
theorem c22_write_ok (vs : List Val) (b : OutBuf)
    (hfit : b.len + (vs.flatMap Val.octets).length ≤ b.capacity) :
    (writeAll vs b).1 = .ok () := by
  induction vs generalizing b with
  | nil => rfl
  | cons v vs ih =>
    simp only [List.flatMap_cons, List.length_append] at hfit
    have hl : b.len + v.octets.length ≤ b.capacity := by omega
    have h1 : v.write b = (.ok (), b.append v.octets) := by rw [Val.write_eq, if_pos hl]
    simp only [writeAll]
    rw [St.bind_ok h1]
    apply ih
    rw [OutBuf.append_capacity hl]; simp only [OutBuf.append]; omega

example : writeAll [.u32 0x01020304, .u8 9, .bytes [1,2], .u16 0xfffe] (OutBuf.new (List.replicate 9 0)) =
    (.ok (), ⟨[1,2,3,4,9,1,2,255,254], 9⟩) := by decide

end R53
