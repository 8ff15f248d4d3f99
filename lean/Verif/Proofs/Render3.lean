import Verif.Proofs.Render2
/-!
# `MessageRender`: every operation
-/
namespace R53
namespace Render
open Name (ofLabels)

/-- the three ways a name is written -/
def NameOut (ls : List Label) (compress : Bool) (start : Nat) (out : List UInt8) : Prop :=
  out = nameWire ls ∨
  (compress = true ∧ ∃ i off, i < ls.length ∧ off < 0x4000 ∧ off < start ∧
    out = wire (ls.take i) ++ [UInt8.ofNat (192 + off / 256), UInt8.ofNat (off % 256)])

theorem DecodesM.pos_lt {r : Render} {g : Mem} (h : RInv r g) {limit pos : Nat} {ls : List Label} {e : Nat}
    (hd : DecodesM g limit pos ls e) : pos < r.buffer.len := by
  cases hd with
  | root h' => exact mem_lt h.buf h.mem h'
  | label _ h' => exact mem_lt h.buf h.mem h'
  | pointer _ _ h' => exact mem_lt h.buf h.mem h'

/-- appending octets and recording them -/
theorem RInv.append {r : Render} {g : Mem} (h : RInv r g) {d : List UInt8} (hfit : r.buffer.len + d.length ≤ r.buffer.capacity) :
    RInv { r with buffer := r.buffer.append d } (g.ext r.buffer.len d) ∧ g.le (g.ext r.buffer.len d) ∧
      (r.buffer.append d).contents = r.buffer.contents ++ d := by
  have hc := OutBuf.append_contents hfit
  have hcl := OutBuf.contents_length h.buf
  have hle : g.le (g.ext r.buffer.len d) := by have := Mem.le_ext h.mem d; rwa [hcl] at this
  refine ⟨?_, hle, hc⟩
  have hinv : (r.buffer.append d).Inv := by
    simp only [OutBuf.Inv, OutBuf.append_capacity hfit]; exact hfit
  have hm0 : g.le (memOf (r.buffer.append d).contents) := by rw [hc]; exact Mem.le_append h.mem d
  refine (RInv.setBuffer h hinv hm0).le hle ?_
  simp only
  rw [hc]
  have := Mem.ext_le h.mem d
  rwa [hcl] at this

/-- the name as written spells `ls`, at every label -/
theorem emitted_decodes {ls : List Label} (hv : ValidName ls) {compress : Bool} {g : Mem} {lu : Nat} {off : UInt16}
    (hs : ScanOK g ls compress lu off) {r : Render} (h : RInv r g) (j : Nat) (hj : j < lu ∨ j = 0) :
    DecodesM (g.ext r.buffer.len (emitted ls lu off)) r.buffer.len (r.buffer.len + (wire (ls.take j)).length) (ls.drop j)
      (r.buffer.len + (emitted ls lu off).length) ∧
    (j < lu → j < ls.length → g.ext r.buffer.len (emitted ls lu off) (r.buffer.len + (wire (ls.take j)).length) =
      some (UInt8.ofNat (ls[j]?.getD []).length)) ∧
    (j < lu → j = ls.length → g.ext r.buffer.len (emitted ls lu off) (r.buffer.len + (wire (ls.take j)).length) = some 0) := by
  generalize hout : emitted ls lu off = out
  have get : ∀ i (hi : i < out.length), g.ext r.buffer.len out (r.buffer.len + i) = some out[i] := fun i hi => Mem.ext_get _ _ _ i hi
  -- the octets of labels j.. of the written prefix
  have pre : ∀ n, (∃ rest, out = wire (ls.take n) ++ rest) → j ≤ n → n ≤ ls.length →
      (∀ i (hi : i < (wire ((ls.take n).drop j)).length), g.ext r.buffer.len out (r.buffer.len + (wire (ls.take j)).length + i) =
        some (wire ((ls.take n).drop j))[i]) ∧
      (wire (ls.take n)).length = (wire (ls.take j)).length + (wire ((ls.take n).drop j)).length := by
    rintro n ⟨rest, hn⟩ hjn hnl
    have hsplit : wire (ls.take n) = wire (ls.take j) ++ wire ((ls.take n).drop j) := by
      have := wire_take_drop (ls.take n) j
      rw [List.take_take, Nat.min_eq_left hjn] at this
      exact this.symm
    have hlen := congrArg List.length hsplit
    rw [List.length_append] at hlen
    refine ⟨fun i hi => ?_, hlen⟩
    have hio : (wire (ls.take j)).length + i < out.length := by rw [hn, List.length_append]; omega
    have := get _ hio
    rw [Nat.add_assoc, this]
    congr 1
    simp only [hn, hsplit]
    rw [List.getElem_append_left (by rw [List.length_append]; omega), List.getElem_append_right (by omega)]
    simp
  rcases hs with ⟨h1, h2⟩ | ⟨h1, h2, h3, h4, e, h5⟩
  · have ho : out = nameWire ls := by rw [← hout]; simp only [emitted, if_pos h1]
    have hjl : j ≤ ls.length := by omega
    have hp := pre ls.length ⟨[0], by rw [ho]; simp [nameWire]⟩ hjl (Nat.le_refl _)
    simp only [List.take_length] at hp
    have hol : out.length = (wire ls).length + 1 := by rw [ho]; simp [nameWire]
    have hroot : g.ext r.buffer.len out (r.buffer.len + (wire ls).length) = some 0 := by
      rw [get _ (by omega)]
      congr 1
      simp [ho, nameWire]
    refine ⟨?_, ?_, ?_⟩
    · have hd : DecodesM (g.ext r.buffer.len out) r.buffer.len (r.buffer.len + (wire (ls.take j)).length + (wire (ls.drop j)).length) []
          (r.buffer.len + out.length) := by
        have : r.buffer.len + (wire (ls.take j)).length + (wire (ls.drop j)).length = r.buffer.len + (wire ls).length := by omega
        rw [this, hol]
        exact .root hroot
      have := DecodesM.labels (fun l hl => hv.1 l (List.mem_of_mem_drop hl)) hp.1 hd
      simpa using this
    · intro _ hjl'
      have h0 := hp.1 0 (by rw [List.drop_eq_getElem_cons hjl', wire_cons]; simp)
      simp only [Nat.add_zero] at h0
      rw [h0]
      congr 1
      simp only [List.drop_eq_getElem_cons hjl', wire_cons, List.getElem_cons_zero, List.getElem?_eq_getElem hjl', Option.getD_some]
    · intro _ hjl'
      rw [hjl', List.take_length]; exact hroot
  · have ho : out = wire (ls.take lu) ++ [UInt8.ofNat (192 + off.toNat / 256), UInt8.ofNat (off.toNat % 256)] := by
      rw [← hout]; simp only [emitted, if_neg h2]
    have hjl : j ≤ lu := by omega
    have hp := pre lu ⟨_, ho⟩ hjl (by omega)
    have hol : out.length = (wire (ls.take lu)).length + 2 := by rw [ho]; simp
    have hhi : (UInt8.ofNat (192 + off.toNat / 256)).toNat = 192 + off.toNat / 256 := toNat_ofNat8 (by omega)
    have hlo : (UInt8.ofNat (off.toNat % 256)).toNat = off.toNat % 256 := toNat_ofNat8 (by omega)
    have hptr : (192 + off.toNat / 256 - 192) * 256 + off.toNat % 256 = off.toNat := by omega
    refine ⟨?_, ?_, ?_⟩
    · have hd : DecodesM (g.ext r.buffer.len out) r.buffer.len (r.buffer.len + (wire (ls.take j)).length + (wire ((ls.take lu).drop j)).length)
          (ls.drop lu) (r.buffer.len + out.length) := by
        have : r.buffer.len + (wire (ls.take j)).length + (wire ((ls.take lu).drop j)).length = r.buffer.len + (wire (ls.take lu)).length := by omega
        rw [this, hol]
        have hge : g.le (g.ext r.buffer.len out) := by
          have := Mem.le_ext h.mem out; rwa [OutBuf.contents_length h.buf] at this
        have := DecodesM.pointer (g := g.ext r.buffer.len out) (limit := r.buffer.len) (pos := r.buffer.len + (wire (ls.take lu)).length)
          (ls := ls.drop lu) (e' := e)
          (UInt8.ofNat (192 + off.toNat / 256)) (UInt8.ofNat (off.toNat % 256))
          (by rw [get _ (by omega)]; congr 1; simp [ho]) (by rw [hhi]; omega)
          (by rw [Nat.add_assoc, get _ (by omega)]; congr 1; simp [ho])
          (by rw [hhi, hlo, hptr]; exact DecodesM.pos_lt h h5)
          (by rw [hhi, hlo, hptr]; exact h5.le hge)
        exact this
      have := DecodesM.labels (fun l hl => hv.1 l (List.mem_of_mem_take (List.mem_of_mem_drop hl))) hp.1 hd
      rw [← List.drop_append_of_le_length (by simp; omega), List.take_append_drop] at this
      exact this
    · intro hjlu hjl'
      have hjt : j < (ls.take lu).length := by simp; omega
      have h0 := hp.1 0 (by rw [List.drop_eq_getElem_cons hjt, wire_cons]; simp)
      simp only [Nat.add_zero] at h0
      rw [h0]
      congr 1
      simp only [List.drop_eq_getElem_cons hjt, wire_cons, List.getElem_cons_zero, List.getElem?_eq_getElem hjl', Option.getD_some, List.getElem_take]
    · intro _ _; omega

theorem write_u8_r (d : UInt8) (r : Render) :
    onBuffer (OutBuf.write_u8 d) r =
      if r.buffer.len + [d].length ≤ r.buffer.capacity then (.ok (), { r with buffer := r.buffer.append [d] }) else (.err, r) := by
  rw [onBuffer_apply, OutBuf.write_u8_eq]
  by_cases h : r.buffer.len + [d].length ≤ r.buffer.capacity
  · rw [if_pos h, if_pos (by exact h)]
  · rw [if_neg h, if_neg (by exact h)]

theorem write_u32_r (d : UInt32) (r : Render) :
    onBuffer (OutBuf.write_u32 d) r =
      if r.buffer.len + (be32 d).length ≤ r.buffer.capacity then (.ok (), { r with buffer := r.buffer.append (be32 d) }) else (.err, r) := by
  rw [onBuffer_apply, OutBuf.write_u32_eq]
  by_cases h : r.buffer.len + (be32 d).length ≤ r.buffer.capacity
  · rw [if_pos h, if_pos (by exact h)]
  · rw [if_neg h, if_neg (by exact h)]

theorem write_u8_at_r (p : Nat) (d : UInt8) (r : Render) (hb : r.buffer.Inv) :
    onBuffer (OutBuf.write_u8_at p d) r =
      if p + [d].length ≤ r.buffer.len then (.ok (), { r with buffer := ⟨overwrite r.buffer.data p [d], r.buffer.len⟩ }) else (.err, r) := by
  rw [onBuffer_apply, OutBuf.write_u8_at_eq _ _ _ hb]
  by_cases h : p + [d].length ≤ r.buffer.len
  · rw [if_pos h, if_pos (by exact h)]
  · rw [if_neg h, if_neg (by exact h)]

theorem write_u16_at_r (p : Nat) (d : UInt16) (r : Render) (hb : r.buffer.Inv) :
    onBuffer (OutBuf.write_u16_at p d) r =
      if p + (be16 d).length ≤ r.buffer.len then (.ok (), { r with buffer := ⟨overwrite r.buffer.data p (be16 d), r.buffer.len⟩ }) else (.err, r) := by
  rw [onBuffer_apply, OutBuf.write_u16_at_eq _ _ _ hb]
  by_cases h : p + (be16 d).length ≤ r.buffer.len
  · rw [if_pos h, if_pos (by exact h)]
  · rw [if_neg h, if_neg (by exact h)]

/-- everything about `write_name` -/
theorem write_name_spec {ls : List Label} (hv : ValidName ls) (compress : Bool) {r : Render} {g : Mem} (h : RInv r g) :
    (∃ r' out, write_name (ofLabels ls) compress r = (.ok (), r') ∧ NameOut ls compress r.buffer.len out ∧
      r.buffer.len + out.length ≤ r.buffer.capacity ∧
      r'.buffer = r.buffer.append out ∧ RInv r' (g.ext r.buffer.len out) ∧ g.le (g.ext r.buffer.len out) ∧
      DecodesM (g.ext r.buffer.len out) r.buffer.len r.buffer.len ls (r.buffer.len + out.length)) ∨
    (∃ r' d, write_name (ofLabels ls) compress r = (.err, r') ∧ r.buffer.len + d.length ≤ r.buffer.capacity ∧
      (r'.buffer = r.buffer.append d ∨ r'.buffer = r.buffer) ∧ RInv r' g ∧
      (compress = false → r.buffer.capacity < r.buffer.len + (nameWire ls).length)) := by
  unfold write_name
  obtain ⟨hs, h1, h2, h3⟩ := scanLoop_spec hv compress g (ofLabels ls).label_count 0 0 r h (by rw [Name.ofLabels_count])
    (by rw [Name.ofLabels_count]; omega) rfl
  have hinv1 : RInv { r with label_hashes := hs } g := RInv.setHashes h h1
  generalize hres : scanLoop (ofLabels ls) compress (ofLabels ls).label_count 0 0 r = res at h2 h3
  obtain ⟨x, r1⟩ := res
  simp only at h2 h3
  subst h2
  have hcap : r.buffer.len ≤ r.buffer.capacity := h.buf
  rcases h3 with ⟨h3, hct⟩ | ⟨lu, off, h3, hsc⟩
  · subst h3
    rw [St.bind_err hres]
    refine Or.inr ⟨_, [], rfl, by simpa using hcap, Or.inr rfl, hinv1, fun hc => ?_⟩
    rw [hc] at hct; simp at hct
  · subst h3
    rw [St.bind_ok hres]
    simp only
    rw [St.get_bind]
    have hem := emitName_spec compress hsc { r with label_hashes := hs } h.buf
    simp only at hem
    by_cases hfit : r.buffer.len + (emitted ls lu off).length ≤ r.buffer.capacity
    · left
      rw [St.bind_ok (hem.1 hfit)]
      obtain ⟨hi2, hle, hcont⟩ := RInv.append hinv1 hfit
      simp only at hi2 hle hcont
      have hdec := fun j hj => emitted_decodes hv hsc hinv1 j hj
      simp only at hdec
      have hlu : lu ≤ ls.length + 1 := by rcases hsc with ⟨_, h⟩ | ⟨_, _, h, _⟩ <;> omega
      obtain ⟨r2, hr2, hr2i, hr2b⟩ := registerLoop_spec (e := 0) hv (start := r.buffer.len) lu 0 _ hi2 (by omega) (fun j _ hj => by
        have := hdec j (Or.inl (by omega))
        exact ⟨_, this.1, this.2.1 (by omega), this.2.2 (by omega)⟩)
      have hz : (wire (ls.take 0)).length = 0 := by simp
      rw [hz, Nat.add_zero, Nat.sub_zero] at hr2
      have hd0 := (hdec 0 (Or.inr rfl)).1
      rw [hz, Nat.add_zero, List.drop_zero] at hd0
      refine ⟨r2, emitted ls lu off, ?_, ?_, hfit, hr2b, hr2i, hle, hd0⟩
      · rw [← hr2]
        congr 1
        rw [Name.len, Name.ofLabels_raw, nameWire_eq]
      · rcases hsc with ⟨a1, a2⟩ | ⟨a1, a2, a3, a4, e, a5⟩
        · left; simp only [emitted, if_pos a1]
        · right
          refine ⟨a1, lu, off.toNat, a3, by omega, DecodesM.pos_lt h a5, ?_⟩
          simp only [emitted, if_neg a2]
    · right
      obtain ⟨d, hdl, hd⟩ := hem.2 hfit
      have hcf : compress = false → r.buffer.capacity < r.buffer.len + (nameWire ls).length := by
        intro hc
        rcases hsc with ⟨a1, a2⟩ | ⟨a1, _⟩
        · simp only [emitted, if_pos a1] at hfit; omega
        · rw [hc] at a1; simp at a1
      rcases hd with hd | hd
      · rw [St.bind_err hd]
        refine ⟨_, d, rfl, hdl, Or.inl rfl, ?_, hcf⟩
        have := (RInv.append hinv1 (d := d) hdl)
        have hinv : (r.buffer.append d).Inv := by
          simp only [OutBuf.Inv, OutBuf.append_capacity hdl]; exact hdl
        exact RInv.setBuffer hinv1 hinv (by rw [OutBuf.append_contents hdl]; exact Mem.le_append h.mem d)
      · rw [St.bind_err hd]
        exact ⟨_, d, rfl, hdl, Or.inr rfl, hinv1, hcf⟩

end Render
end R53
