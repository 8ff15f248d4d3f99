import Verif.Proofs.Render
/-!
# `MessageRender::write_name`
-/
namespace R53
namespace Render
open Name (ofLabels)

theorem refData_ofLabels {ls : List Label} {i : Nat} (hi : i < ls.length) :
    refData (ofLabels ls) i = .ok (nameWire (ls.drop i)) := by
  unfold refData
  have hii : i < (ls ++ [([] : Label)]).length := by simp; omega
  simp only [Name.ofLabels]
  rw [starts_idx _ _ hii, Res.bind_ok, slice_ok (wire_take_le _ _) (Nat.le_refl _)]
  have := wire_drop (ls ++ [([] : Label)]) i
  rw [this, nameWire_eq, List.take_of_length_le]
  · rw [List.drop_append_of_le_length (by omega)]
  · have h2 := congrArg List.length (wire_take_drop (ls ++ [([] : Label)]) i)
    rw [List.length_append] at h2; omega

theorem RInv.setHashes {r : Render} {g : Mem} (h : RInv r g) {hs : List UInt32} (hl : hs.length = 128) :
    RInv { r with label_hashes := hs } g :=
  ⟨h.buf, h.mem, h.tlen, h.rows, h.clen, h.counts, hl, h.items⟩

/-- outcome of the search for a suffix already written -/
def ScanOK (g : Mem) (ls : List Label) (compress : Bool) (lu : Nat) (off : UInt16) : Prop :=
  (off = NO_OFFSET ∧ lu = ls.length + 1) ∨
  (compress = true ∧ off ≠ NO_OFFSET ∧ lu < ls.length ∧ off.toNat ≤ 0x3fff ∧ ∃ e, DecodesM g off.toNat off.toNat (ls.drop lu) e)

theorem scanLoop_spec {ls : List Label} (hv : ValidName ls) (compress : Bool) (g : Mem) (k lu level : Nat) (r : Render)
    (h : RInv r g) (hk : k + lu = ls.length + 1) (hk0 : 0 < k) (hlev : level = lu - 1) :
    ∃ hs, hs.length = 128 ∧ (scanLoop (ofLabels ls) compress k lu level r).2 = { r with label_hashes := hs } ∧
      ((scanLoop (ofLabels ls) compress k lu level r).1 = .err ∧ compress = true ∨
        ∃ lu' off, (scanLoop (ofLabels ls) compress k lu level r).1 = .ok (lu', off) ∧ ScanOK g ls compress lu' off) := by
  induction k generalizing lu level r with
  | zero => omega
  | succ k ih =>
    have hcount := hv.count
    simp only [scanLoop]
    have e1 : (if lu > 0 then cadd8 level 1 else .ok level) = .ok lu := by
      by_cases h0 : lu > 0
      · rw [if_pos h0, cadd8_ok (by omega)]; congr 1; omega
      · rw [if_neg h0]; congr 1; omega
    rw [St.bind_ok (s' := r) (a := lu) (by rw [e1]; rfl),
      St.bind_ok (s' := r) (a := lu + 1) (by rw [cadd8_ok (by omega)]; rfl)]
    rw [show (ofLabels ls).label_count % 256 = ls.length + 1 by rw [Name.ofLabels_count]; omega]
    by_cases hroot : lu + 1 = ls.length + 1
    · rw [if_pos hroot]
      exact ⟨r.label_hashes, h.hlen, rfl, Or.inr ⟨lu + 1, NO_OFFSET, rfl, Or.inl ⟨rfl, by omega⟩⟩⟩
    · rw [if_neg hroot]
      have hlu : lu < ls.length := by omega
      rw [St.bind_ok (s' := r) (a := nameWire (ls.drop lu)) (by rw [refData_ofLabels hlu]; rfl)]
      rw [St.get_bind]
      rw [St.bind_ok (s' := r) (a := r.label_hashes[lu]'(by rw [h.hlen]; omega)) (by rw [idx_of_lt (by rw [h.hlen]; omega)]; rfl)]
      generalize hr1 : ({ r with label_hashes := r.label_hashes.set lu (hashBytes (nameWire (ls.drop lu))) } : Render) = r1
      have h1 : RInv r1 g := by rw [← hr1]; exact RInv.setHashes h (by simp [h.hlen])
      have hback : ∀ hs, ({ r1 with label_hashes := hs } : Render) = { r with label_hashes := hs } := by
        intro hs; rw [← hr1]
      rw [St.put_bind]
      have hvd : ValidName (ls.drop lu) := hv.sublist (List.drop_sublist lu ls)
      have hrec : ∃ hs, hs.length = 128 ∧ (scanLoop (ofLabels ls) compress k (lu + 1) lu r1).2 = { r with label_hashes := hs } ∧
          ((scanLoop (ofLabels ls) compress k (lu + 1) lu r1).1 = .err ∧ compress = true ∨
            ∃ lu' off, (scanLoop (ofLabels ls) compress k (lu + 1) lu r1).1 = .ok (lu', off) ∧ ScanOK g ls compress lu' off) := by
        obtain ⟨hs, a1, a2, a3⟩ := ih (lu + 1) lu r1 h1 (by omega) (by omega) (by omega)
        exact ⟨hs, a1, by rw [a2, hback], a3⟩
      cases compress with
      | false => simpa using hrec
      | true =>
        simp only [if_true]
        rw [St.get_bind]
        have hf := find_offset_spec h1 (hashBytes (nameWire (ls.drop lu))) hvd
        have hself : r1 = { r with label_hashes := r1.label_hashes } := by rw [← hr1]
        cases hres : find_offset r1 (nameWire (ls.drop lu)) (hashBytes (nameWire (ls.drop lu))) with
        | panic => exact absurd hres hf.1
        | err =>
          rw [St.bind_err (s' := r1) (by rfl)]
          exact ⟨r1.label_hashes, h1.hlen, hself, Or.inl ⟨rfl, trivial⟩⟩
        | ok off =>
          rw [St.bind_ok (s' := r1) (a := off) (by rfl)]
          by_cases hoff : off = NO_OFFSET
          · rw [if_neg (by simpa using hoff)]; simpa using hrec
          · rw [if_pos hoff]
            rcases hf.2 off hres with h0 | ⟨e, hd, hle⟩
            · exact absurd h0 hoff
            · exact ⟨r1.label_hashes, h1.hlen, hself, Or.inr ⟨lu, off, rfl, Or.inr ⟨rfl, hoff, hlu, hle, e, hd⟩⟩⟩

/-- what `emitName` writes -/
def emitted (ls : List Label) (lu : Nat) (off : UInt16) : List UInt8 :=
  if off = NO_OFFSET then nameWire ls
  else wire (ls.take lu) ++ [UInt8.ofNat (192 + off.toNat / 256), UInt8.ofNat (off.toNat % 256)]

theorem pointer_be16 (off : UInt16) (h : off.toNat ≤ 0x3fff) :
    be16 (off ||| COMPRESS_POINTER_MARK16) = [UInt8.ofNat (192 + off.toNat / 256), UInt8.ofNat (off.toNat % 256)] := by
  have e : (off ||| COMPRESS_POINTER_MARK16).toNat = 49152 + off.toNat := by
    rw [UInt16.toNat_or, Nat.or_comm, show COMPRESS_POINTER_MARK16.toNat = 2^14 * 3 from rfl,
      ← Nat.two_pow_add_eq_or_of_lt (show off.toNat < 2^14 by omega)]
  unfold be16
  rw [e]
  congr 2
  · omega
  · congr 1; omega

theorem onBuffer_apply {α : Type} (m : St OutBuf α) (r : Render) :
    onBuffer m r = ((m r.buffer).1, { r with buffer := (m r.buffer).2 }) := by
  unfold onBuffer; rfl

theorem write_bytes_r (d : List UInt8) (r : Render) :
    onBuffer (OutBuf.write_bytes d) r =
      if r.buffer.len + d.length ≤ r.buffer.capacity then (.ok (), { r with buffer := r.buffer.append d }) else (.err, r) := by
  rw [onBuffer_apply, OutBuf.write_bytes_eq]
  split <;> rfl

theorem write_u16_r (d : UInt16) (r : Render) :
    onBuffer (OutBuf.write_u16 d) r =
      if r.buffer.len + 2 ≤ r.buffer.capacity then (.ok (), { r with buffer := r.buffer.append (be16 d) }) else (.err, r) := by
  rw [onBuffer_apply, OutBuf.write_u16_eq]
  simp only [be16, List.length_cons, List.length_nil]
  split <;> rfl

/-- the labels `emitName` leaves behind when it runs out of room -/
def leftover (ls : List Label) (lu : Nat) (off : UInt16) (room : Nat) : List UInt8 :=
  if off = NO_OFFSET ∨ room < (wire (ls.take lu)).length then [] else wire (ls.take lu)

/-- `emitName` appends `emitted` when it fits, else fails after appending at most the labels -/
theorem emitName_exact {ls : List Label} (compress : Bool) {g : Mem} {lu : Nat} {off : UInt16}
    (hs : ScanOK g ls compress lu off) (r : Render) (_hb : r.buffer.Inv) :
    (r.buffer.len + (emitted ls lu off).length ≤ r.buffer.capacity →
      emitName (ofLabels ls) compress lu off r = (.ok (), { r with buffer := r.buffer.append (emitted ls lu off) })) ∧
    (¬ r.buffer.len + (emitted ls lu off).length ≤ r.buffer.capacity →
      emitName (ofLabels ls) compress lu off r = (.err, { r with buffer := r.buffer.append (leftover ls lu off (r.buffer.capacity - r.buffer.len)) })) := by
  have hnil : r.buffer.append [] = r.buffer := by
    simp only [OutBuf.append, overwrite, List.length_nil, Nat.add_zero, List.append_nil, List.take_append_drop]
  have hbi : r.buffer.len ≤ r.buffer.capacity := _hb
  unfold emitName emitPointer
  rcases hs with ⟨h1, h2⟩ | ⟨h1, h2, h3, h4, e, h5⟩
  · rw [if_neg (by simp [h1])]
    have hlab : emitLabels (ofLabels ls) compress lu = onBuffer (OutBuf.write_bytes (ofLabels ls).raw) := by
      unfold emitLabels; rw [if_pos (Or.inr (by rw [h2, Name.ofLabels_count]))]
    rw [hlab]
    have hem : emitted ls lu off = (ofLabels ls).raw := by
      simp only [emitted, if_pos h1]; rw [Name.ofLabels_raw, nameWire_eq]
    rw [hem]
    rw [St.bind_apply, write_bytes_r]
    refine ⟨fun hfit => ?_, fun hfit => ?_⟩
    · rw [if_pos hfit]; rfl
    · have hlo : leftover ls lu off (r.buffer.capacity - r.buffer.len) = [] := by
        unfold leftover
        exact if_pos (Or.inl h1)
      rw [hlo, hnil, if_neg hfit]
  · rw [if_pos ⟨h1, h2⟩]
    have hem : emitted ls lu off = wire (ls.take lu) ++ be16 (off ||| COMPRESS_POINTER_MARK16) := by
      simp only [emitted, if_neg h2]; rw [pointer_be16 _ h4]
    have hbl : (be16 (off ||| COMPRESS_POINTER_MARK16)).length = 2 := rfl
    rw [hem, List.length_append, hbl]
    have hfirst : ∀ (k : Unit → St Render Unit), (emitLabels (ofLabels ls) compress lu >>= k) r =
        if r.buffer.len + (wire (ls.take lu)).length ≤ r.buffer.capacity then
          k () { r with buffer := r.buffer.append (wire (ls.take lu)) } else (.err, r) := by
      intro k
      unfold emitLabels
      rw [if_neg (by rw [h1, Name.ofLabels_count]; simp; omega)]
      by_cases h0 : lu > 0
      · rw [if_pos h0]
        have hll : lu < (ls ++ [([] : Label)]).length := by simp; omega
        have hk : (St.lift (idx (ofLabels ls).offsets lu) : St Render Nat) r = (.ok (wire (ls.take lu)).length, r) := by
          simp only [Name.ofLabels]
          rw [starts_idx _ _ hll, List.take_append_of_le_length (by omega)]; rfl
        have hd : (St.lift (slice (ofLabels ls).raw 0 (wire (ls.take lu)).length) : St Render (List UInt8)) r = (.ok (wire (ls.take lu)), r) := by
          simp only [Name.ofLabels]
          have h2 := congrArg List.length (wire_take_drop (ls ++ [([] : Label)]) lu)
          rw [List.length_append, List.take_append_of_le_length (by omega)] at h2
          rw [slice_ok (by omega) (by omega)]
          have := wire_take (ls ++ [([] : Label)]) lu
          rw [List.take_append_of_le_length (by omega)] at this
          simp only [List.drop_zero, Nat.sub_zero, this]; rfl
        rw [St.bind_apply, St.bind_ok hk, St.bind_ok hd, write_bytes_r]
        by_cases hfit : r.buffer.len + (wire (ls.take lu)).length ≤ r.buffer.capacity
        · rw [if_pos hfit, if_pos hfit]
        · rw [if_neg hfit, if_neg hfit]
      · rw [if_neg h0]
        have hz : lu = 0 := by omega
        subst hz
        have happ : r.buffer.append (wire (ls.take 0)) = r.buffer := by
          simp only [OutBuf.append, overwrite, List.take_zero, wire_nil, List.length_nil, Nat.add_zero, List.append_nil, List.take_append_drop]
        rw [happ, if_pos (by simpa [OutBuf.Inv] using _hb)]
        rfl
    rw [hfirst]
    refine ⟨fun hfit => ?_, fun hfit => ?_⟩
    · rw [if_pos (by omega), write_u16_r]
      have hc : (r.buffer.append (wire (ls.take lu))).capacity = r.buffer.capacity := OutBuf.append_capacity (by omega)
      have hl : (r.buffer.append (wire (ls.take lu))).len = r.buffer.len + (wire (ls.take lu)).length := rfl
      rw [if_pos (by simp only [hc, hl]; omega)]
      simp only
      rw [OutBuf.append_append (by rw [hbl]; omega)]
    · by_cases hfit2 : r.buffer.len + (wire (ls.take lu)).length ≤ r.buffer.capacity
      · have hlo : leftover ls lu off (r.buffer.capacity - r.buffer.len) = wire (ls.take lu) := by
          unfold leftover
          rw [if_neg]
          rintro (h | h)
          · exact h2 h
          · omega
        rw [hlo, if_pos hfit2, write_u16_r]
        have hc : (r.buffer.append (wire (ls.take lu))).capacity = r.buffer.capacity := OutBuf.append_capacity hfit2
        have hl : (r.buffer.append (wire (ls.take lu))).len = r.buffer.len + (wire (ls.take lu)).length := rfl
        rw [if_neg (by simp only [hc, hl]; omega)]
      · have hlo : leftover ls lu off (r.buffer.capacity - r.buffer.len) = [] := by
          unfold leftover
          exact if_pos (Or.inr (by omega))
        rw [hlo, hnil, if_neg hfit2]

theorem emitName_spec {ls : List Label} (compress : Bool) {g : Mem} {lu : Nat} {off : UInt16}
    (hs : ScanOK g ls compress lu off) (r : Render) (hb : r.buffer.Inv) :
    (r.buffer.len + (emitted ls lu off).length ≤ r.buffer.capacity →
      emitName (ofLabels ls) compress lu off r = (.ok (), { r with buffer := r.buffer.append (emitted ls lu off) })) ∧
    (¬ r.buffer.len + (emitted ls lu off).length ≤ r.buffer.capacity → ∃ d, r.buffer.len + d.length ≤ r.buffer.capacity ∧
      (emitName (ofLabels ls) compress lu off r = (.err, { r with buffer := r.buffer.append d }) ∨
       emitName (ofLabels ls) compress lu off r = (.err, r))) := by
  obtain ⟨h1, h2⟩ := emitName_exact compress hs r hb
  have hbi : r.buffer.len ≤ r.buffer.capacity := hb
  refine ⟨h1, fun hno => ⟨_, ?_, Or.inl (h2 hno)⟩⟩
  unfold leftover
  split
  · simpa using hbi
  · rename_i hc
    have : ¬ r.buffer.capacity - r.buffer.len < (wire (ls.take lu)).length := fun h => hc (Or.inr h)
    omega

/-- after the octets are written, registering the label offsets -/
theorem registerLoop_spec {ls : List Label} (hv : ValidName ls) {g : Mem} {start e : Nat} (k i : Nat) (r : Render) (h : RInv r g)
    (hcur : k + i ≤ ls.length + 1) (hik : ∀ j, i ≤ j → j < i + k → ∃ e, DecodesM g start (start + (wire (ls.take j)).length) (ls.drop j) e ∧
        (j < ls.length → g (start + (wire (ls.take j)).length) = some (UInt8.ofNat (ls[j]?.getD []).length)) ∧
        (j = ls.length → g (start + (wire (ls.take j)).length) = some 0)) :
    ∃ r', registerLoop k i (start + (wire (ls.take i)).length) ((nameWire ls).length - (wire (ls.take i)).length) r = (.ok (), r') ∧
      RInv r' g ∧ r'.buffer = r.buffer := by
  induction k generalizing i r with
  | zero => exact ⟨r, rfl, h, rfl⟩
  | succ k ih =>
    obtain ⟨ei, hd, hlt, heq⟩ := hik i (by omega) (by omega)
    have hcount := hv.count
    simp only [registerLoop]
    rw [St.get_bind]
    by_cases hend : i = ls.length
    · rw [St.bind_ok (s' := r) (a := 0) (by rw [at_mem h.buf h.mem (heq hend)]; rfl), if_pos rfl]
      exact ⟨r, rfl, h, rfl⟩
    · have hi : i < ls.length := by omega
      have hli : ls[i]?.getD [] = ls[i] := by simp [hi]
      have hlab : ValidLabel ls[i] := hv.1 _ (List.getElem_mem hi)
      have hu := u8_len hlab.2
      rw [St.bind_ok (s' := r) (a := UInt8.ofNat (ls[i]).length) (by rw [at_mem h.buf h.mem (hlt hi), hli]; rfl)]
      rw [if_neg (by intro h0; rw [h0] at hu; have := hlab.1; simp at hu; omega)]
      by_cases hbig : start + (wire (ls.take i)).length > MAX_COMPRESS_POINTER
      · rw [if_pos hbig]; exact ⟨r, rfl, h, rfl⟩
      · rw [if_neg hbig]
        simp only [MAX_COMPRESS_POINTER] at hbig
        rw [St.bind_ok (s' := r) (a := r.label_hashes[i]'(by rw [h.hlen]; omega)) (by rw [idx_of_lt (by rw [h.hlen]; omega)]; rfl)]
        have htd : (nameWire ls).length = (wire (ls.take i)).length + (nameWire (ls.drop i)).length := by
          simp only [nameWire]
          have := congrArg List.length (wire_take_drop ls i)
          rw [List.length_append] at this
          rw [List.length_append, List.length_append]
          omega
        have hwl := hv.2
        have hpos : (UInt16.ofNat (start + (wire (ls.take i)).length)).toNat = start + (wire (ls.take i)).length := by
          apply UInt16.toNat_ofNat_of_lt'; simp only [UInt16.size]; omega
        have hitem : ItemOK g (OffSetItem.new (UInt8.ofNat ((nameWire ls).length - (wire (ls.take i)).length))
            (UInt16.ofNat (start + (wire (ls.take i)).length)) (r.label_hashes[i]'(by rw [h.hlen]; omega))) := by
          refine ⟨ls.drop i, ei, hv.sublist (List.drop_sublist i ls), ?_, ?_, ?_⟩
          · rw [OffSetItem.new_pos, hpos]; exact hd.mono (by omega)
          · rw [OffSetItem.new_pos, hpos]; omega
          · rw [OffSetItem.new_len, toNat_ofNat8 (by omega)]; omega
        obtain ⟨r1, ha, hr1, hbuf, hhs⟩ := add_offset_spec h _ _ _ hitem
        rw [St.bind_ok (s' := r) (a := r1) (by rw [ha]; rfl), St.put_bind]
        rw [hu, St.bind_ok (s' := r1) (a := ls[i].length + 1) (by rw [cadd8_ok (by have := hlab.2; omega)]; rfl)]
        have hws : (wire (ls.take (i + 1))).length = (wire (ls.take i)).length + (ls[i].length + 1) := by
          rw [wire_take_succ _ _ hi]; omega
        have hle : (wire (ls.take (i + 1))).length ≤ (wire ls).length := wire_take_le ls (i + 1)
        have hnl : (wire ls).length ≤ (nameWire ls).length := by simp [nameWire]
        rw [St.bind_ok (s' := r1) (a := (nameWire ls).length - (wire (ls.take i)).length - (ls[i].length + 1)) (by rw [csub_ok (by omega)]; rfl)]
        obtain ⟨r2, hr2, hinv, hb2⟩ := ih (i + 1) r1 hr1 (by omega) (fun j h1 h2 => hik j (by omega) (by omega))
        refine ⟨r2, ?_, hinv, hb2.trans hbuf⟩
        rw [← hr2, hws]
        congr 1 <;> omega

end Render
end R53
