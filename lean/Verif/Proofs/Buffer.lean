import Verif.Model.Buffer
import Verif.Spec.Bytes
/-! # Lemmas about the buffers -/
namespace R53

/-! ## big-endian arithmetic -/

theorem u16_hi (d : UInt16) : ((d &&& 0xff00) >>> 8).toUInt8 = UInt8.ofNat (d.toNat / 256) := by
  apply UInt8.toNat_inj.mp
  have h := d.toNat_lt
  have : (d.toNat &&& 65280) >>> 8 = d.toNat / 256 % 256 := by
    rw [Nat.shiftRight_and_distrib]
    show _ &&& (2^8 - 1) = _
    rw [Nat.and_two_pow_sub_one_eq_mod, Nat.shiftRight_eq_div_pow]
  simp [this]

theorem u16_lo (d : UInt16) : (d &&& 0x00ff).toUInt8 = UInt8.ofNat (d.toNat % 256) := by
  apply UInt8.toNat_inj.mp
  have : (d.toNat % 256 &&& 255) = d.toNat % 256 % 256 := Nat.and_two_pow_sub_one_eq_mod (d.toNat % 256) 8
  simp [this]

theorem u32_b (d m : Nat) (k : Nat) (hm : m >>> k = 2^8 - 1) :
    (d &&& m) >>> k % 256 = d / 2^k % 256 := by
  rw [Nat.shiftRight_and_distrib, hm, Nat.and_two_pow_sub_one_eq_mod, Nat.shiftRight_eq_div_pow]
  omega

theorem u32_b3 (d : UInt32) : ((d &&& 0xff000000) >>> 24).toUInt8 = UInt8.ofNat (d.toNat / 16777216) := by
  apply UInt8.toNat_inj.mp
  have := u32_b d.toNat 0xff000000 24 (by decide)
  simp at this ⊢; omega
theorem u32_b2 (d : UInt32) : ((d &&& 0x00ff0000) >>> 16).toUInt8 = UInt8.ofNat (d.toNat / 65536 % 256) := by
  apply UInt8.toNat_inj.mp
  have := u32_b d.toNat 0x00ff0000 16 (by decide)
  simp at this ⊢; omega
theorem u32_b1 (d : UInt32) : ((d &&& 0x0000ff00) >>> 8).toUInt8 = UInt8.ofNat (d.toNat / 256 % 256) := by
  apply UInt8.toNat_inj.mp
  have := u32_b d.toNat 0x0000ff00 8 (by decide)
  simp at this ⊢; omega
theorem u32_b0 (d : UInt32) : (d &&& 0x000000ff).toUInt8 = UInt8.ofNat (d.toNat % 256) := by
  apply UInt8.toNat_inj.mp
  have : (d.toNat % 256 &&& 255) = d.toNat % 256 % 256 := Nat.and_two_pow_sub_one_eq_mod (d.toNat % 256) 8
  simp [this]

theorem u16_join (a c : UInt8) : ((a.toUInt16 <<< 8) ||| c.toUInt16).toNat = a.toNat * 256 + c.toNat := by
  have ha := a.toNat_lt
  have hc := c.toNat_lt
  have : a.toNat <<< 8 % 65536 ||| c.toNat = a.toNat * 256 + c.toNat := by
    rw [Nat.mod_eq_of_lt (by rw [Nat.shiftLeft_eq]; omega)]
    rw [← Nat.shiftLeft_add_eq_or_of_lt (by simpa using hc), Nat.shiftLeft_eq]
  simpa using this

theorem u32_join (a c d e : UInt8) :
    ((((a.toUInt32 <<< 24) ||| (c.toUInt32 <<< 16)) ||| (d.toUInt32 <<< 8)) ||| e.toUInt32).toNat
      = a.toNat * 16777216 + c.toNat * 65536 + d.toNat * 256 + e.toNat := by
  have ha := a.toNat_lt
  have hc := c.toNat_lt
  have hd := d.toNat_lt
  have he := e.toNat_lt
  have h1 : a.toNat <<< 24 % 4294967296 = a.toNat <<< 24 := Nat.mod_eq_of_lt (by rw [Nat.shiftLeft_eq]; omega)
  have h2 : c.toNat <<< 16 % 4294967296 = c.toNat <<< 16 := Nat.mod_eq_of_lt (by rw [Nat.shiftLeft_eq]; omega)
  have h3 : d.toNat <<< 8 % 4294967296 = d.toNat <<< 8 := Nat.mod_eq_of_lt (by rw [Nat.shiftLeft_eq]; omega)
  have s1 : a.toNat <<< 24 ||| c.toNat <<< 16 = (a.toNat * 256 + c.toNat) <<< 16 := by
    rw [show a.toNat <<< 24 = (a.toNat <<< 8) <<< 16 by rw [← Nat.shiftLeft_add], ← Nat.shiftLeft_or_distrib,
      ← Nat.shiftLeft_add_eq_or_of_lt (by simpa using hc), Nat.shiftLeft_eq (a.toNat)]
  have s2 : (a.toNat * 256 + c.toNat) <<< 16 ||| d.toNat <<< 8 = ((a.toNat * 256 + c.toNat) * 256 + d.toNat) <<< 8 := by
    rw [show (a.toNat * 256 + c.toNat) <<< 16 = ((a.toNat * 256 + c.toNat) <<< 8) <<< 8 by rw [← Nat.shiftLeft_add],
      ← Nat.shiftLeft_or_distrib, ← Nat.shiftLeft_add_eq_or_of_lt (by simpa using hd), Nat.shiftLeft_eq (a.toNat * 256 + c.toNat)]
  have s3 : ((a.toNat * 256 + c.toNat) * 256 + d.toNat) <<< 8 ||| e.toNat
      = a.toNat * 16777216 + c.toNat * 65536 + d.toNat * 256 + e.toNat := by
    rw [← Nat.shiftLeft_add_eq_or_of_lt (by simpa using he), Nat.shiftLeft_eq]; omega
  simp [h1, h2, h3, s1, s2, s3]

theorem toNat_ofNat8 {n : Nat} (h : n < 256) : (UInt8.ofNat n).toNat = n := by
  simp [UInt8.toNat_ofNat', Nat.mod_eq_of_lt h]

theorem u16_join_be (v : UInt16) (a c : UInt8) (h : be16 v = [a, c]) :
    ((a.toUInt16 <<< 8) ||| c.toUInt16) = v := by
  apply UInt16.toNat_inj.mp
  rw [u16_join]
  simp only [be16, List.cons.injEq, and_true] at h
  obtain ⟨rfl, rfl⟩ := h
  have := v.toNat_lt
  rw [toNat_ofNat8 (by omega), toNat_ofNat8 (by omega)]; omega

theorem u32_join_be (v : UInt32) (a c d e : UInt8) (h : be32 v = [a, c, d, e]) :
    ((((a.toUInt32 <<< 24) ||| (c.toUInt32 <<< 16)) ||| (d.toUInt32 <<< 8)) ||| e.toUInt32) = v := by
  apply UInt32.toNat_inj.mp
  rw [u32_join]
  simp only [be32, List.cons.injEq, and_true] at h
  obtain ⟨rfl, rfl, rfl, rfl⟩ := h
  have := v.toNat_lt
  rw [toNat_ofNat8 (by omega), toNat_ofNat8 (by omega), toNat_ofNat8 (by omega), toNat_ofNat8 (by omega)]; omega

/-- two octets are the network order of their joined value -/
theorem be16_join (a c : UInt8) : be16 ((a.toUInt16 <<< 8) ||| c.toUInt16) = [a, c] := by
  have ha := a.toNat_lt
  have hc := c.toNat_lt
  simp only [be16, u16_join, List.cons.injEq, and_true]
  constructor <;> apply UInt8.toNat_inj.mp <;> rw [toNat_ofNat8 (by omega)] <;> omega

theorem be32_join (a c d e : UInt8) :
    be32 ((((a.toUInt32 <<< 24) ||| (c.toUInt32 <<< 16)) ||| (d.toUInt32 <<< 8)) ||| e.toUInt32) = [a, c, d, e] := by
  have ha := a.toNat_lt
  have hc := c.toNat_lt
  have hd := d.toNat_lt
  have he := e.toNat_lt
  simp only [be32, u32_join, List.cons.injEq, and_true]
  refine ⟨?_, ?_, ?_, ?_⟩ <;> apply UInt8.toNat_inj.mp <;> rw [toNat_ofNat8 (by omega)] <;> omega

/-! ## list helpers -/

theorem overwrite_length {l d : List UInt8} {p : Nat} (h : p + d.length ≤ l.length) :
    (overwrite l p d).length = l.length := by
  simp [overwrite]; omega

theorem overwrite_getElem? {l d : List UInt8} {p : Nat} (h : p + d.length ≤ l.length) (i : Nat) :
    (overwrite l p d)[i]? = if p ≤ i ∧ i < p + d.length then d[i - p]? else l[i]? := by
  simp only [overwrite, List.append_assoc]
  have hp : (List.take p l).length = p := by simp; omega
  rw [List.getElem?_append, hp]
  split
  · rw [if_neg (by omega), List.getElem?_take, if_pos (by assumption)]
  · rw [List.getElem?_append]
    split
    · rw [if_pos (by omega)]
    · rw [if_neg (by omega), List.getElem?_drop]; congr 1; omega

theorem set_eq_overwrite (l : List UInt8) (p : Nat) (x : UInt8) (h : p < l.length) :
    l.set p x = overwrite l p [x] := by
  apply List.ext_getElem?
  intro i
  rw [overwrite_getElem? (by simp; omega), List.getElem?_set]
  simp only [List.length_singleton]
  by_cases hi : p = i
  · subst hi; simp [h]
  · rw [if_neg hi, if_neg (by omega)]

theorem overwrite_overwrite (l d e : List UInt8) (p : Nat) (h : p + d.length + e.length ≤ l.length) :
    overwrite (overwrite l p d) (p + d.length) e = overwrite l p (d ++ e) := by
  have h1 : (overwrite l p d).length = l.length := overwrite_length (by omega)
  apply List.ext_getElem?
  intro i
  rw [overwrite_getElem? (by omega), overwrite_getElem? (by omega), overwrite_getElem? (by simp; omega)]
  simp only [List.length_append, List.getElem?_append]
  grind

theorem take_overwrite (l d : List UInt8) (p : Nat) (h : p + d.length ≤ l.length) :
    (overwrite l p d).take (p + d.length) = l.take p ++ d := by
  have hp : (List.take p l).length = p := by simp; omega
  simp only [overwrite]
  rw [List.take_append_of_le_length (by simp; omega), List.take_of_length_le (by simp; omega)]

namespace OutBuf

/-- representation invariant of the output buffer -/
def Inv (b : OutBuf) : Prop := b.len ≤ b.capacity

theorem contents_length {b : OutBuf} (h : b.Inv) : b.contents.length = b.len := by
  simp only [contents, List.length_take]; unfold Inv capacity at h; omega

/-- the common shape of all appending writes -/
def append (b : OutBuf) (d : List UInt8) : OutBuf := ⟨overwrite b.data b.len d, b.len + d.length⟩

theorem append_contents {b : OutBuf} {d : List UInt8} (h : b.len + d.length ≤ b.capacity) :
    (b.append d).contents = b.contents ++ d := by
  simp only [append, contents]; rw [take_overwrite _ _ _ h]

theorem append_capacity {b : OutBuf} {d : List UInt8} (h : b.len + d.length ≤ b.capacity) :
    (b.append d).capacity = b.capacity := by
  simp only [append, capacity]; exact overwrite_length h

theorem append_append {b : OutBuf} {d e : List UInt8} (h : b.len + d.length + e.length ≤ b.capacity) :
    (b.append d).append e = b.append (d ++ e) := by
  simp only [append, List.length_append, OutBuf.mk.injEq]
  exact ⟨overwrite_overwrite _ _ _ _ h, by omega⟩

theorem write_bytes_eq (d : List UInt8) (b : OutBuf) :
    write_bytes d b = if b.len + d.length ≤ b.capacity then (.ok (), b.append d) else (.err, b) := rfl

theorem store_ok {b : OutBuf} {p : Nat} {d : UInt8} (h : p < b.data.length) :
    b.store p d = .ok ⟨overwrite b.data p [d], b.len⟩ := by
  simp [store, h, set_eq_overwrite _ _ _ h]

theorem write_u8_eq (d : UInt8) (b : OutBuf) :
    write_u8 d b = if b.len + 1 ≤ b.capacity then (.ok (), b.append [d]) else (.err, b) := by
  unfold write_u8
  by_cases h : b.len < b.capacity
  · rw [if_pos h, store_ok h, if_pos (by omega)]; rfl
  · rw [if_neg h, if_neg (by omega)]

theorem write_u16_eq (d : UInt16) (b : OutBuf) :
    write_u16 d b = if b.len + 2 ≤ b.capacity then (.ok (), b.append (be16 d)) else (.err, b) := by
  unfold write_u16
  by_cases h : b.len + 2 ≤ b.capacity
  · have hc : b.capacity = b.data.length := rfl
    simp only [if_pos h]
    rw [store_ok (by omega), Res.bind_ok, store_ok (by simp only [overwrite_length (d := [_]) (p := b.len) (l := b.data) (by simp; omega)]; omega)]
    simp only [Res.bind_ok, Res.pure_eq]
    rw [u16_hi, u16_lo]
    simp only [append, be16]
    congr 2
    exact overwrite_overwrite b.data [_] [_] b.len (by simp; omega)
  · simp only [if_neg h]

theorem write_u32_eq (d : UInt32) (b : OutBuf) :
    write_u32 d b = if b.len + 4 ≤ b.capacity then (.ok (), b.append (be32 d)) else (.err, b) := by
  unfold write_u32
  by_cases h : b.len + 4 ≤ b.capacity
  · have hc : b.capacity = b.data.length := rfl
    simp only [if_pos h, u32_b3, u32_b2, u32_b1, u32_b0]
    have e1 := overwrite_overwrite b.data [UInt8.ofNat (d.toNat / 16777216)] [UInt8.ofNat (d.toNat / 65536 % 256)] b.len (by simp; omega)
    have e2 := overwrite_overwrite b.data [UInt8.ofNat (d.toNat / 16777216), UInt8.ofNat (d.toNat / 65536 % 256)]
      [UInt8.ofNat (d.toNat / 256 % 256)] b.len (by simp; omega)
    have e3 := overwrite_overwrite b.data [UInt8.ofNat (d.toNat / 16777216), UInt8.ofNat (d.toNat / 65536 % 256), UInt8.ofNat (d.toNat / 256 % 256)]
      [UInt8.ofNat (d.toNat % 256)] b.len (by simp; omega)
    simp only [List.length_cons, List.length_nil, List.cons_append, List.nil_append, Nat.zero_add, Nat.reduceAdd] at e1 e2 e3
    rw [store_ok (by omega), Res.bind_ok,
      store_ok (by simp only [overwrite_length (d := [_]) (p := b.len) (l := b.data) (by simp; omega)]; omega)]
    simp only [Res.bind_ok, e1]
    rw [store_ok (by simp only [overwrite_length (d := [_, _]) (p := b.len) (l := b.data) (by simp; omega)]; omega)]
    simp only [Res.bind_ok, e2]
    rw [store_ok (by simp only [overwrite_length (d := [_, _, _]) (p := b.len) (l := b.data) (by simp; omega)]; omega)]
    simp only [Res.bind_ok, e3, Res.pure_eq]
    simp only [append, be32]
    rfl
  · simp only [if_neg h]

theorem write_u16_at_eq (p : Nat) (d : UInt16) (b : OutBuf) (hb : b.Inv) :
    write_u16_at p d b = if p + 2 ≤ b.len then (.ok (), ⟨overwrite b.data p (be16 d), b.len⟩) else (.err, b) := by
  unfold write_u16_at
  unfold Inv at hb
  by_cases h : p + 2 ≤ b.len
  · have hc : b.capacity = b.data.length := rfl
    simp only [if_pos h]
    rw [store_ok (by omega), Res.bind_ok, store_ok (by simp only [overwrite_length (d := [_]) (p := p) (l := b.data) (by simp; omega)]; omega)]
    simp only [Res.bind_ok, Res.pure_eq]
    rw [u16_hi, u16_lo]
    simp only [be16]
    congr 2
    exact overwrite_overwrite b.data [_] [_] p (by simp; omega)
  · simp only [if_neg h]

theorem write_u8_at_eq (p : Nat) (d : UInt8) (b : OutBuf) (hb : b.Inv) :
    write_u8_at p d b = if p < b.len then (.ok (), ⟨overwrite b.data p [d], b.len⟩) else (.err, b) := by
  unfold write_u8_at
  unfold Inv at hb
  have hc : b.capacity = b.data.length := rfl
  by_cases h : p < b.len
  · rw [if_pos h, store_ok (by omega), if_pos h]
  · rw [if_neg h, if_neg h]

/-- contents after a positional write -/
theorem contents_overwrite {b : OutBuf} {p : Nat} {d : List UInt8} (hb : b.Inv) (h : p + d.length ≤ b.len) :
    (⟨overwrite b.data p d, b.len⟩ : OutBuf).contents = overwrite b.contents p d := by
  have hc : b.capacity = b.data.length := rfl
  unfold Inv at hb
  simp only [contents]
  apply List.ext_getElem?
  intro i
  rw [List.getElem?_take, overwrite_getElem? (by omega), overwrite_getElem? (by simp; omega), List.getElem?_take]
  grind

end OutBuf

namespace InBuf

/-- representation invariant of the cursor -/
def Inv (b : InBuf) : Prop := b.pos ≤ b.data.length

theorem read_u8_eq (b : InBuf) : read_u8 b =
    match b.data[b.pos]? with
    | some x => (.ok x, { b with pos := b.pos + 1 })
    | none => (.err, b) := by
  unfold read_u8 len idx
  by_cases h : b.pos < b.data.length
  · simp [h]
  · simp [h]

theorem read_bytes_eq (n : Nat) (b : InBuf) : read_bytes n b =
    if b.pos + n ≤ b.data.length then (.ok ((b.data.drop b.pos).take n), { b with pos := b.pos + n })
    else (.err, b) := by
  unfold read_bytes len slice
  by_cases h : b.pos + n ≤ b.data.length
  · simp [h]
  · simp [h]

theorem read_u16_eq (b : InBuf) : read_u16 b =
    if b.pos + 2 ≤ b.data.length then
      (.ok ((b.data[b.pos]!.toUInt16 <<< 8) ||| b.data[b.pos+1]!.toUInt16), { b with pos := b.pos + 2 })
    else (.err, b) := by
  unfold read_u16 len
  by_cases h : b.pos + 1 < b.data.length
  · simp only [if_pos h]
    rw [idx_of_lt (by omega), Res.bind_ok, idx_of_lt h, Res.bind_ok, Res.pure_eq, if_pos (by omega)]
    simp only [getElem!_pos b.data b.pos (by omega), getElem!_pos b.data (b.pos + 1) h]
  · simp only [if_neg h]; rw [if_neg (by omega)]

theorem read_u32_eq (b : InBuf) : read_u32 b =
    if b.pos + 4 ≤ b.data.length then
      (.ok ((((b.data[b.pos]!.toUInt32 <<< 24) ||| (b.data[b.pos+1]!.toUInt32 <<< 16)) |||
        (b.data[b.pos+2]!.toUInt32 <<< 8)) ||| b.data[b.pos+3]!.toUInt32), { b with pos := b.pos + 4 })
    else (.err, b) := by
  unfold read_u32 len
  by_cases h : b.pos + 3 < b.data.length
  · simp only [if_pos h]
    rw [idx_of_lt (by omega), Res.bind_ok, idx_of_lt (by omega), Res.bind_ok, idx_of_lt (by omega), Res.bind_ok,
      idx_of_lt h, Res.bind_ok, Res.pure_eq, if_pos (by omega)]
    simp only [getElem!_pos b.data b.pos (by omega), getElem!_pos b.data (b.pos + 1) (by omega),
      getElem!_pos b.data (b.pos + 2) (by omega), getElem!_pos b.data (b.pos + 3) h]
  · simp only [if_neg h]; rw [if_neg (by omega)]

/-- reading what `be16` spells -/
theorem read_u16_be {b : InBuf} {v : UInt16} {rest : List UInt8}
    (h : b.data.drop b.pos = be16 v ++ rest) : read_u16 b = (.ok v, { b with pos := b.pos + 2 }) := by
  have hl := congrArg List.length h
  simp only [List.length_drop, List.length_append, be16_length] at hl
  have h0 := congrArg (·[0]?) h
  have h1 := congrArg (·[1]?) h
  simp [be16] at h0 h1
  rw [read_u16_eq, if_pos (by omega)]
  rw [u16_join_be v]
  simp [be16, h0, h1]

theorem read_u32_be {b : InBuf} {v : UInt32} {rest : List UInt8}
    (h : b.data.drop b.pos = be32 v ++ rest) : read_u32 b = (.ok v, { b with pos := b.pos + 4 }) := by
  have hl := congrArg List.length h
  simp only [List.length_drop, List.length_append, be32_length] at hl
  have h0 := congrArg (·[0]?) h
  have h1 := congrArg (·[1]?) h
  have h2 := congrArg (·[2]?) h
  have h3 := congrArg (·[3]?) h
  simp [be32] at h0 h1 h2 h3
  rw [read_u32_eq, if_pos (by omega)]
  rw [u32_join_be v]
  simp [be32, h0, h1, h2, h3]

theorem read_bytes_be {b : InBuf} {d rest : List UInt8}
    (h : b.data.drop b.pos = d ++ rest) (hb : b.Inv) :
    read_bytes d.length b = (.ok d, { b with pos := b.pos + d.length }) := by
  have hl := congrArg List.length h
  simp only [List.length_drop, List.length_append] at hl
  unfold Inv at hb
  rw [read_bytes_eq, if_pos (by omega), h]
  simp

end InBuf
end R53
