import Verif.Proofs.Message2
/-!
# The renderer does not see what the buffer held before

`Other r g b`: `b` is another buffer with the same fill and size that also holds the recorded octets `g`.
`Blind w`: on the other buffer `w` answers the same, changes the compression table the same way, and on success appends
the same octets.
-/
namespace R53

/-- the same renderer on another buffer -/
def Render.on (r : Render) (b : OutBuf) : Render := { r with buffer := b }

structure Other (r : Render) (g : Mem) (b : OutBuf) : Prop where
  inv : b.Inv
  mem : g.le (memOf b.contents)
  len : b.len = r.buffer.len
  cap : b.capacity = r.buffer.capacity

theorem Other.rinv {r : Render} {g : Mem} {b : OutBuf} (h : Other r g b) (hr : RInv r g) : RInv (r.on b) g :=
  RInv.setBuffer hr h.inv h.mem

namespace Render

/-! ## looking up names -/

theorem nextLabel_other {o1 o2 : OutBuf} (h1 : o1.Inv) (h2 : o2.Inv) {g : Mem} (m1 : g.le (memOf o1.contents)) (m2 : g.le (memOf o2.contents))
    {limit pos : Nat} {ls : List Label} {e : Nat} (h : DecodesM g limit pos ls e) (fuel : Nat) (hf : limit < fuel) :
    nextLabel o1 fuel pos = nextLabel o2 fuel pos := by
  induction h generalizing fuel with
  | root k1 =>
    cases fuel with
    | zero => omega
    | succ fuel =>
      simp only [nextLabel, at_mem h1 m1 k1, at_mem h2 m2 k1, Res.bind_ok]
      rw [if_neg (by decide), if_neg (by decide)]
  | @label limit pos e l ls k1 k2 k3 k4 ih =>
    cases fuel with
    | zero => omega
    | succ fuel =>
      simp only [nextLabel, at_mem h1 m1 k2, at_mem h2 m2 k2, Res.bind_ok]
      have : ¬ (UInt8.ofNat l.length &&& COMPRESS_POINTER_MARK8 = COMPRESS_POINTER_MARK8) := by
        rw [mark_iff, u8_len k1.2]; have := k1.2; omega
      rw [if_neg this, if_neg this]
  | @pointer limit pos ls e' hi lo k1 k2 k3 k4 k5 ih =>
    cases fuel with
    | zero => omega
    | succ fuel =>
      have ih := ih fuel (by omega)
      simp only [nextLabel, at_mem h1 m1 k1, at_mem h2 m2 k1, Res.bind_ok]
      rw [if_pos ((mark_iff hi).mpr k2), if_pos ((mark_iff hi).mpr k2), at_mem h1 m1 k3, at_mem h2 m2 k3, Res.bind_ok, Res.bind_ok,
        mark_value hi k2]
      exact ih

theorem cmpLabelBytes_other {o1 o2 : OutBuf} (h1 : o1.Inv) (h2 : o2.Inv) {g : Mem} (m1 : g.le (memOf o1.contents))
    (m2 : g.le (memOf o2.contents)) (n p : Nat) (nb : InBuf) (hl : ∀ i, i < n → ∃ c, g (p + i) = some c) :
    cmpLabelBytes o1 n p nb = cmpLabelBytes o2 n p nb := by
  induction n generalizing p nb with
  | zero => rfl
  | succ n ih =>
    obtain ⟨c, hc⟩ := hl 0 (by omega)
    rw [Nat.add_zero] at hc
    simp only [cmpLabelBytes]
    rw [St.lift_ok_bind (at_mem h1 m1 hc), St.lift_ok_bind (at_mem h2 m2 hc)]
    simp only [St.bind_apply]
    rcases InBuf.read_u8 nb with ⟨x | _ | _, nb'⟩
    · simp only
      split
      · rfl
      · split
        · exact ih _ _ fun i hi => by
            obtain ⟨c, hc⟩ := hl (i + 1) (by omega)
            exact ⟨c, by rw [← hc]; congr 1; omega⟩
        · rfl
    · rfl
    · rfl

theorem compareLoop_other {o1 o2 : OutBuf} (h1 : o1.Inv) (h2 : o2.Inv) {g : Mem} (m1 : g.le (memOf o1.contents))
    (m2 : g.le (memOf o2.contents)) (hlen : o2.len = o1.len) (fuel : Nat) {limit pos : Nat}
    {ls : List Label} {e : Nat} (h : DecodesM g limit pos ls e) (nb : InBuf) (hlim : limit ≤ o1.len)
    (hp : pos + (nameWire ls).length < 0x4200) (hw : (nameWire ls).length ≤ 255) :
    compareLoop o1 fuel pos nb = compareLoop o2 fuel pos nb := by
  induction fuel generalizing limit pos ls e nb with
  | zero => rfl
  | succ fuel ih =>
    have hn := nextLabel_spec h1 m1 h (o1.len + 1) (by omega)
    have he := nextLabel_other h1 h2 m1 m2 h (o1.len + 1) (by omega)
    simp only [compareLoop]
    rw [hlen]
    cases ls with
    | nil =>
      obtain ⟨p, hn⟩ := hn
      rw [hn] at he
      rw [St.lift_ok_bind hn, St.lift_ok_bind he.symm]
      simp only [St.bind_apply]
      rcases InBuf.read_u8 nb with ⟨x | _ | _, nb'⟩
      · simp only
        by_cases hx : x = 0
        · subst hx; rfl
        · rw [if_pos (by simpa using hx), if_pos (by simpa using hx)]
      · rfl
      · rfl
    | cons l ls =>
      obtain ⟨q, lim', e', hn, hv, hq, hl', hg, hd'⟩ := hn
      have hwl : (nameWire (l :: ls)).length = l.length + 1 + (nameWire ls).length := by
        simp only [nameWire]; rw [List.length_append, List.length_append, wire_length_cons]; omega
      rw [hn] at he
      rw [St.lift_ok_bind hn, St.lift_ok_bind he.symm]
      simp only [St.bind_apply]
      rcases InBuf.read_u8 nb with ⟨x | _ | _, nb'⟩
      · simp only
        by_cases hx : x = UInt8.ofNat l.length
        · have hlc : x.toNat = l.length := by rw [hx]; exact u8_len hv.2
          have hc0 : x ≠ 0 := by intro h0; rw [h0] at hlc; have := hv.1; simp at hlc; omega
          rw [if_neg (by simpa using hx), if_neg hc0, if_neg (by simpa using hx), if_neg hc0, hlc, Nat.mod_eq_of_lt (by omega)]
          have hcmp := cmpLabelBytes_spec h1 m1 l (q + 1) nb' hg (by omega)
          have hce := cmpLabelBytes_other h1 h2 m1 m2 l.length (q + 1) nb' fun i hi => ⟨_, hg i hi⟩
          simp only [St.bind_apply]
          rw [← hce]
          generalize cmpLabelBytes o1 l.length (q + 1) nb' = res at hcmp
          obtain ⟨r1, nb1⟩ := res
          cases r1 with
          | panic => rfl
          | err => rfl
          | ok o =>
            cases o with
            | none => rfl
            | some q' =>
              simp only
              have hne : l ≠ [] := by intro h0; rw [h0] at hv; have := hv.1; simp at this
              obtain ⟨k1, _⟩ := (hcmp.2.2.1 q' rfl).resolve_right hne
              subst k1
              exact ih hd' nb1 (by omega) (by omega) (by omega)
        · rw [if_pos (by simpa using hx), if_pos (by simpa using hx)]
      · rfl
      · rfl

theorem compareItem_other {o1 o2 : OutBuf} (h1 : o1.Inv) (h2 : o2.Inv) {g : Mem} (m1 : g.le (memOf o1.contents))
    (m2 : g.le (memOf o2.contents)) (hlen : o2.len = o1.len) (hash : UInt32) {it : OffSetItem} (hi : ItemOK g it) (nb : InBuf) :
    compareItem o1 hash it nb = compareItem o2 hash it nb := by
  unfold compareItem
  split
  · rfl
  · obtain ⟨ls', e, k1, k2, k3, k4⟩ := hi
    have hpos : it.pos.toNat ≤ o1.len := by
      cases k2 with
      | root h => have := mem_lt h1 m1 h; omega
      | label _ h => have := mem_lt h1 m1 h; omega
      | pointer _ _ h => have := mem_lt h1 m1 h; omega
    have := k1.2
    exact compareLoop_other h1 h2 m1 m2 hlen _ k2 nb hpos (by omega) this

theorem findItems_other {o1 o2 : OutBuf} (h1 : o1.Inv) (h2 : o2.Inv) {g : Mem} (m1 : g.le (memOf o1.contents))
    (m2 : g.le (memOf o2.contents)) (hlen : o2.len = o1.len) (hash : UInt32) (items : List OffSetItem)
    (hi : ∀ it ∈ items, ItemOK g it) (nb : InBuf) : findItems o1 hash items nb = findItems o2 hash items nb := by
  induction items generalizing nb with
  | nil => rfl
  | cons it items ih =>
    simp only [findItems, St.bind_apply]
    rw [compareItem_other h1 h2 m1 m2 hlen hash (hi it (by simp))]
    rcases compareItem o2 hash it nb with ⟨x | _ | _, nb'⟩
    · cases x with
      | true => rfl
      | false => exact ih (fun x hx => hi x (by simp [hx])) nb'
    · rfl
    · rfl

theorem find_offset_other {r : Render} {g : Mem} {b : OutBuf} (hr : RInv r g) (hb : Other r g b) (hash : UInt32) (d : List UInt8) :
    find_offset (r.on b) d hash = find_offset r d hash := by
  unfold find_offset
  have hbk := bucket_lt hash
  have ht : (hash % 64).toNat < r.table.length := by rw [hr.tlen]; exact hbk
  have hc : (hash % 64).toNat < r.item_counts.length := by rw [hr.clen]; exact hbk
  simp only [Render.on, idx_of_lt ht, idx_of_lt hc, Res.bind_ok]
  have hrow := hr.rows _ (List.getElem_mem ht)
  have hcnt := hr.counts _ (List.getElem_mem hc)
  rw [slice_ok (by omega) (by omega), Res.bind_ok, Res.bind_ok]
  rw [findItems_other hb.inv hr.buf hb.mem hr.mem hb.len.symm hash]
  intro it hit
  simp only [List.drop_zero, Nat.sub_zero] at hit
  exact hr.items _ _ _ (List.getElem?_eq_getElem ht) (List.getElem?_eq_getElem hc) it hit

/-! ## writing a name -/
open Name (ofLabels)

theorem scanLoop_other {ls : List Label} (hv : ValidName ls) (compress : Bool) (g : Mem) (b : OutBuf) (k lu level : Nat) (r : Render)
    (h : RInv r g) (hb : Other r g b) (hk : k + lu = ls.length + 1) (hk0 : 0 < k) (hlev : level = lu - 1) :
    scanLoop (ofLabels ls) compress k lu level (r.on b) =
      ((scanLoop (ofLabels ls) compress k lu level r).1, (scanLoop (ofLabels ls) compress k lu level r).2.on b) := by
  induction k generalizing lu level r with
  | zero => omega
  | succ k ih =>
    have hcount := hv.count
    simp only [scanLoop]
    have e1 : (if lu > 0 then cadd8 level 1 else .ok level) = .ok lu := by
      by_cases h0 : lu > 0
      · rw [if_pos h0, cadd8_ok (by omega)]; congr 1; omega
      · rw [if_neg h0]; congr 1; omega
    have pre : ∀ (r : Render) (f : Nat → St Render (Nat × UInt16)),
        ((St.lift (if lu > 0 then cadd8 level 1 else .ok level) : St Render Nat) >>= fun level =>
          (St.lift (cadd8 level 1) : St Render Nat) >>= fun l1 => if l1 = (ofLabels ls).label_count % 256 then pure (lu + 1, NO_OFFSET) else f level) r =
        (if lu + 1 = ls.length + 1 then (pure (lu + 1, NO_OFFSET) : St Render (Nat × UInt16)) else f lu) r := by
      intro r f
      rw [St.bind_ok (s' := r) (a := lu) (by rw [e1]; rfl),
        St.bind_ok (s' := r) (a := lu + 1) (by rw [cadd8_ok (by omega)]; rfl)]
      rw [show (ofLabels ls).label_count % 256 = ls.length + 1 by rw [Name.ofLabels_count]; omega]
    rw [pre, pre]
    by_cases hroot : lu + 1 = ls.length + 1
    · rw [if_pos hroot]; rfl
    · rw [if_neg hroot]
      have hlu : lu < ls.length := by omega
      have hidx : idx (r.on b).label_hashes lu = idx r.label_hashes lu := rfl
      have hli : idx r.label_hashes lu = .ok (r.label_hashes[lu]'(by rw [h.hlen]; omega)) := idx_of_lt (by rw [h.hlen]; omega)
      rw [St.lift_ok_bind (refData_ofLabels hlu), St.lift_ok_bind (refData_ofLabels hlu)]
      rw [St.get_bind, St.get_bind]
      rw [St.lift_ok_bind (hidx.trans hli), St.lift_ok_bind hli, St.put_bind, St.put_bind]
      generalize hr1 : ({ r with label_hashes := r.label_hashes.set lu (hashBytes (nameWire (ls.drop lu))) } : Render) = r1
      have hr1b : ({ r.on b with label_hashes := (r.on b).label_hashes.set lu (hashBytes (nameWire (ls.drop lu))) } : Render) = r1.on b := by
        rw [← hr1]; rfl
      rw [hr1b]
      have h1 : RInv r1 g := by rw [← hr1]; exact RInv.setHashes h (by simp [h.hlen])
      have hb1 : Other r1 g b := by
        rw [← hr1]; exact ⟨hb.inv, hb.mem, hb.len, hb.cap⟩
      have hrec := ih (lu + 1) lu r1 h1 hb1 (by omega)
      cases compress with
      | false => exact hrec (by omega) (by omega)
      | true =>
        simp only [if_true]
        rw [St.get_bind, St.get_bind, find_offset_other h1 hb1]
        cases hres : find_offset r1 (nameWire (ls.drop lu)) (hashBytes (nameWire (ls.drop lu))) with
        | panic => rfl
        | err => rfl
        | ok off =>
          rw [St.lift_ok_bind rfl, St.lift_ok_bind rfl]
          by_cases hoff : off = NO_OFFSET
          · rw [if_neg (by simpa using hoff)]; exact hrec (by omega) (by omega)
          · rw [if_pos hoff]; rfl

theorem add_offset_on (r : Render) (b : OutBuf) (hash : UInt32) (off : UInt16) (len : UInt8) :
    add_offset (r.on b) hash off len = (add_offset r hash off len >>= fun r' => .ok (r'.on b)) := by
  unfold add_offset
  simp only [Render.on]
  cases idx r.item_counts (hash % 64).toNat with
  | err => rfl
  | panic => rfl
  | ok c =>
    simp only [Res.bind_ok]
    split
    · rfl
    · cases idx r.table (hash % 64).toNat with
      | err => rfl
      | panic => rfl
      | ok items =>
        simp only [Res.bind_ok]
        cases idx items c <;> rfl

theorem registerLoop_other {ls : List Label} (hv : ValidName ls) {g : Mem} {b : OutBuf} {start : Nat} (k i : Nat) (r : Render) (h : RInv r g)
    (hb : Other r g b)
    (hcur : k + i ≤ ls.length + 1) (hik : ∀ j, i ≤ j → j < i + k → ∃ e, DecodesM g start (start + (wire (ls.take j)).length) (ls.drop j) e ∧
        (j < ls.length → g (start + (wire (ls.take j)).length) = some (UInt8.ofNat (ls[j]?.getD []).length)) ∧
        (j = ls.length → g (start + (wire (ls.take j)).length) = some 0)) :
    registerLoop k i (start + (wire (ls.take i)).length) ((nameWire ls).length - (wire (ls.take i)).length) (r.on b) =
      ((registerLoop k i (start + (wire (ls.take i)).length) ((nameWire ls).length - (wire (ls.take i)).length) r).1,
       (registerLoop k i (start + (wire (ls.take i)).length) ((nameWire ls).length - (wire (ls.take i)).length) r).2.on b) := by
  induction k generalizing i r with
  | zero => rfl
  | succ k ih =>
    obtain ⟨ei, hd, hlt, heq⟩ := hik i (by omega) (by omega)
    have hcount := hv.count
    simp only [registerLoop]
    rw [St.get_bind, St.get_bind]
    have hob : (r.on b).buffer = b := rfl
    by_cases hend : i = ls.length
    · rw [St.lift_ok_bind (at_mem (ob := (r.on b).buffer) hb.inv hb.mem (heq hend)), St.lift_ok_bind (at_mem h.buf h.mem (heq hend)), if_pos rfl, if_pos rfl]
      rfl
    · have hi : i < ls.length := by omega
      have hli : ls[i]?.getD [] = ls[i] := by simp [hi]
      have hlab : ValidLabel ls[i] := hv.1 _ (List.getElem_mem hi)
      have hu := u8_len hlab.2
      have hgi := hlt hi
      rw [hli] at hgi
      rw [St.lift_ok_bind (at_mem (ob := (r.on b).buffer) hb.inv hb.mem hgi), St.lift_ok_bind (at_mem h.buf h.mem hgi)]
      have hn0 : ¬ UInt8.ofNat ls[i].length = 0 := by intro h0; rw [h0] at hu; have := hlab.1; simp at hu; omega
      rw [if_neg hn0, if_neg hn0]
      by_cases hbig : start + (wire (ls.take i)).length > MAX_COMPRESS_POINTER
      · rw [if_pos hbig, if_pos hbig]; rfl
      · rw [if_neg hbig, if_neg hbig]
        simp only [MAX_COMPRESS_POINTER] at hbig
        have hhi : idx r.label_hashes i = .ok (r.label_hashes[i]'(by rw [h.hlen]; omega)) := idx_of_lt (by rw [h.hlen]; omega)
        have hhb : idx (r.on b).label_hashes i = .ok (r.label_hashes[i]'(by rw [h.hlen]; omega)) := hhi
        rw [St.lift_ok_bind hhb, St.lift_ok_bind hhi]
        have htd : (nameWire ls).length = (wire (ls.take i)).length + (nameWire (ls.drop i)).length := by
          simp only [nameWire]
          have := congrArg List.length (wire_take_drop ls i)
          rw [List.length_append] at this
          rw [List.length_append, List.length_append]
          omega
        have hwl := hv.2
        have hpos : (UInt16.ofNat (start + (wire (ls.take i)).length)).toNat = start + (wire (ls.take i)).length := by
          apply UInt16.toNat_ofNat_of_lt'; simp only [UInt16.size]; omega
        have hitem : ItemOK g (OffSetItem.new (UInt8.ofNat ((nameWire ls).length - (wire (ls.take i)).length))
            (UInt16.ofNat (start + (wire (ls.take i)).length)) (r.label_hashes[i]'(by rw [h.hlen]; omega))) := by
          refine ⟨ls.drop i, ei, hv.sublist (List.drop_sublist i ls), ?_, ?_, ?_⟩
          · rw [OffSetItem.new_pos, hpos]; exact hd.mono (by omega)
          · rw [OffSetItem.new_pos, hpos]; omega
          · rw [OffSetItem.new_len, toNat_ofNat8 (by omega)]; omega
        obtain ⟨r1, ha, hr1, hbuf, hhs⟩ := add_offset_spec h _ _ _ hitem
        have hb1 : Other r1 g b := ⟨hb.inv, hb.mem, by rw [hbuf]; exact hb.len, by rw [hbuf]; exact hb.cap⟩
        have hab := add_offset_on r b (r.label_hashes[i]'(by rw [h.hlen]; omega)) (UInt16.ofNat (start + (wire (ls.take i)).length))
          (UInt8.ofNat ((nameWire ls).length - (wire (ls.take i)).length))
        rw [ha] at hab
        rw [St.lift_ok_bind hab, St.lift_ok_bind ha, St.put_bind, St.put_bind]
        have hws : (wire (ls.take (i + 1))).length = (wire (ls.take i)).length + (ls[i].length + 1) := by
          rw [wire_take_succ _ _ hi]; omega
        have hle : (wire (ls.take (i + 1))).length ≤ (wire ls).length := wire_take_le ls (i + 1)
        have hnl : (wire ls).length ≤ (nameWire ls).length := by simp [nameWire]
        have hca : cadd8 (UInt8.ofNat ls[i].length).toNat 1 = .ok (ls[i].length + 1) := by
          rw [hu]; exact cadd8_ok (by have := hlab.2; omega)
        have hcs : csub ((nameWire ls).length - (wire (ls.take i)).length) (ls[i].length + 1) =
            .ok ((nameWire ls).length - (wire (ls.take i)).length - (ls[i].length + 1)) := csub_ok (by omega)
        rw [St.lift_ok_bind hca, St.lift_ok_bind hca, St.lift_ok_bind hcs, St.lift_ok_bind hcs]
        have := ih (i + 1) r1 hr1 hb1 (by omega) (fun j h1 h2 => hik j (by omega) (by omega))
        rw [hws] at this
        rw [show start + (wire (ls.take i)).length + (ls[i].length + 1) = start + ((wire (ls.take i)).length + (ls[i].length + 1)) by omega,
          show (nameWire ls).length - (wire (ls.take i)).length - (ls[i].length + 1) =
            (nameWire ls).length - ((wire (ls.take i)).length + (ls[i].length + 1)) by omega]
        exact this

end Render

/-! ## writers -/

/-- the writer does not see the octets outside `g` -/
structure Blind (w : St Render Unit) : Prop where
  run : ∀ r g b, RInv r g → Other r g b →
    (∃ r' out, w r = (.ok (), r') ∧ Wrote r r' g out ∧ w (r.on b) = (.ok (), r'.on (b.append out))) ∨
    (∃ r' d d', w r = (.err, r') ∧ r.buffer.len + d.length ≤ r.buffer.capacity ∧ r'.buffer = r.buffer.append d ∧ d'.length = d.length ∧
      w (r.on b) = (.err, r'.on (b.append d')))

theorem Other.append {r r' : Render} {g : Mem} {b : OutBuf} {out : List UInt8} (h : Other r g b) (hr : RInv r g) (hw : Wrote r r' g out) :
    Other r' (g.ext r.buffer.len out) (b.append out) := by
  have hfit : b.len + out.length ≤ b.capacity := by rw [h.len, h.cap]; exact hw.fit
  have := (Render.RInv.append (h.rinv hr) (d := out) hfit).1
  rw [← h.len]
  exact ⟨this.buf, this.mem, by rw [hw.buf, OutBuf.append_len, OutBuf.append_len, h.len],
    by rw [OutBuf.append_capacity hfit, hw.cap, h.cap]⟩

namespace Blind

theorem seq {w1 w2 : St Render Unit} (h1 : Blind w1) (h2 : Blind w2) : Blind (w1 >>= fun _ => w2) := by
  refine ⟨fun r g b hr hb => ?_⟩
  rcases h1.run r g b hr hb with ⟨r1, a, e1, k1, f1⟩ | ⟨r1, d, d', e1, k1, k2, k3, f1⟩
  · rcases h2.run r1 _ (b.append a) k1.inv (hb.append hr k1) with ⟨r2, c, e2, k2, f2⟩ | ⟨r2, d, d', e2, k2, k3, k4, f2⟩
    · refine Or.inl ⟨r2, a ++ c, by rw [St.bind_ok e1]; exact e2, k1.trans k2, ?_⟩
      rw [St.bind_ok f1, f2, OutBuf.append_append]
      have := k2.fit
      rw [k1.len, k1.cap] at this
      rw [hb.len, hb.cap]; exact this
    · rw [k1.len, k1.cap] at k2
      refine Or.inr ⟨r2, a ++ d, a ++ d', by rw [St.bind_ok e1]; exact e2, by simp; omega, ?_, by simp [k4], ?_⟩
      · rw [k3, k1.buf, OutBuf.append_append k2]
      · rw [St.bind_ok f1, f2, OutBuf.append_append]
        rw [hb.len, hb.cap, k4]; exact k2
  · exact Or.inr ⟨r1, d, d', by rw [St.bind_err e1], k1, k2, k3, by rw [St.bind_err f1]⟩

theorem pure : Blind (Pure.pure ()) :=
  ⟨fun r g b hr _ => Or.inl ⟨r, [], rfl, Wrote.nil hr, by rw [OutBuf.append_nil]; rfl⟩⟩

/-- fixed octets -/
theorem octets {w : St Render Unit} {d : List UInt8}
    (hw : ∀ r, w r = if r.buffer.len + d.length ≤ r.buffer.capacity then (.ok (), { r with buffer := r.buffer.append d }) else (.err, r)) :
    Blind w := by
  refine ⟨fun r g b hr hb => ?_⟩
  have hcap : r.buffer.len ≤ r.buffer.capacity := hr.buf
  have hbo : (r.on b).buffer = b := rfl
  by_cases hfit : r.buffer.len + d.length ≤ r.buffer.capacity
  · refine Or.inl ⟨_, d, by rw [hw, if_pos hfit], ⟨hfit, rfl, (Render.RInv.append hr hfit).1⟩, ?_⟩
    rw [hw, if_pos (by rw [hbo, hb.len, hb.cap]; exact hfit)]; rfl
  · refine Or.inr ⟨r, [], [], by rw [hw, if_neg hfit], by simpa using hcap, by rw [OutBuf.append_nil], rfl, ?_⟩
    rw [hw, if_neg (by rw [hbo, hb.len, hb.cap]; exact hfit), OutBuf.append_nil]

theorem u8 (v : UInt8) : Blind (Render.write_u8 v) := octets (d := [v]) (Render.write_u8_r v)
theorem u16 (v : UInt16) : Blind (Render.write_u16 v) := octets (d := be16 v) fun r => by rw [Render.write_u16, Render.write_u16_r]; rfl
theorem u32 (v : UInt32) : Blind (Render.write_u32 v) := octets (d := be32 v) fun r => by rw [Render.write_u32, Render.write_u32_r]
theorem bytes (d : List UInt8) : Blind (Render.write_bytes d) := octets (d := d) fun r => by rw [Render.write_bytes, Render.write_bytes_r]

open Name (ofLabels) in
theorem name {n : Name} (hn : n.WF) (c : Bool) : Blind (Render.write_name n c) := by
  obtain ⟨ls, hv, rfl⟩ := hn
  refine ⟨fun r g b h hb => ?_⟩
  unfold Render.write_name
  obtain ⟨hs, h1, h2, h3⟩ := Render.scanLoop_spec hv c g (ofLabels ls).label_count 0 0 r h (by rw [Name.ofLabels_count])
    (by rw [Name.ofLabels_count]; omega) rfl
  have hother := Render.scanLoop_other hv c g b (ofLabels ls).label_count 0 0 r h hb (by rw [Name.ofLabels_count])
    (by rw [Name.ofLabels_count]; omega) rfl
  have hinv1 : RInv { r with label_hashes := hs } g := Render.RInv.setHashes h h1
  generalize hres : Render.scanLoop (ofLabels ls) c (ofLabels ls).label_count 0 0 r = res at h2 h3 hother
  obtain ⟨x, r1⟩ := res
  simp only at h2 h3 hother
  have hb1 : Other r1 g b := by rw [h2]; exact ⟨hb.inv, hb.mem, hb.len, hb.cap⟩
  have hcap : r.buffer.len ≤ r.buffer.capacity := h.buf
  rw [← h2] at hinv1
  have hbuf1 : r1.buffer = r.buffer := by rw [h2]
  rcases h3 with ⟨h3, hct⟩ | ⟨lu, off, h3, hsc⟩
  · subst h3
    rw [St.bind_err hres, St.bind_err hother]
    refine Or.inr ⟨r1, [], [], rfl, by simpa using hcap, by rw [OutBuf.append_nil, hbuf1], rfl, ?_⟩
    rw [OutBuf.append_nil]
  · subst h3
    rw [St.bind_ok hres, St.bind_ok hother]
    simp only
    rw [St.get_bind, St.get_bind]
    have hem := Render.emitName_exact c hsc r1 hinv1.buf
    have hemb := Render.emitName_exact c hsc (r1.on b) hb.inv
    have hob : (r1.on b).buffer = b := rfl
    rw [hob, hb1.len, hb1.cap] at hemb
    rw [hob, hb1.len]
    by_cases hfit : r1.buffer.len + (Render.emitted ls lu off).length ≤ r1.buffer.capacity
    · left
      rw [St.bind_ok (hem.1 hfit), St.bind_ok (hemb.1 hfit)]
      obtain ⟨hi2, hle, hcont⟩ := Render.RInv.append hinv1 hfit
      have hdec := fun j hj => Render.emitted_decodes hv hsc hinv1 j hj
      have hlu : lu ≤ ls.length + 1 := by rcases hsc with ⟨_, h⟩ | ⟨_, _, h, _⟩ <;> omega
      have hik : ∀ j, 0 ≤ j → j < 0 + lu → ∃ e, DecodesM (g.ext r1.buffer.len (Render.emitted ls lu off)) r1.buffer.len
          (r1.buffer.len + (wire (ls.take j)).length) (ls.drop j) e ∧
          (j < ls.length → g.ext r1.buffer.len (Render.emitted ls lu off) (r1.buffer.len + (wire (ls.take j)).length) =
            some (UInt8.ofNat (ls[j]?.getD []).length)) ∧
          (j = ls.length → g.ext r1.buffer.len (Render.emitted ls lu off) (r1.buffer.len + (wire (ls.take j)).length) = some 0) := by
        intro j _ hj
        have := hdec j (Or.inl (by omega))
        exact ⟨_, this.1, this.2.1 (by omega), this.2.2 (by omega)⟩
      have hwr : Wrote r1 { r1 with buffer := r1.buffer.append (Render.emitted ls lu off) } g (Render.emitted ls lu off) := ⟨hfit, rfl, hi2⟩
      have hb2 := hb1.append hinv1 hwr
      obtain ⟨r2, hr2, hr2i, hr2b⟩ := Render.registerLoop_spec (e := 0) hv (start := r1.buffer.len) lu 0 _ hi2 (by omega) hik
      have hro := Render.registerLoop_other hv (start := r1.buffer.len) lu 0 _ hi2 hb2 (by omega) hik
      rw [hr2] at hro
      have hz : (wire (ls.take 0)).length = 0 := by simp
      have hnl : (ofLabels ls).len = (nameWire ls).length := by rw [Name.len, Name.ofLabels_raw, nameWire_eq]
      rw [hz, Nat.add_zero, Nat.sub_zero] at hr2 hro
      rw [hnl]
      refine ⟨r2, Render.emitted ls lu off, hr2, ⟨by rw [← hbuf1]; exact hfit, by rw [hr2b, hbuf1], ?_⟩, hro⟩
      rw [← hbuf1]; exact hr2i
    · right
      rw [St.bind_err (hem.2 hfit), St.bind_err (hemb.2 hfit)]
      refine ⟨_, _, _, rfl, ?_, by simp only; rw [hbuf1], rfl, rfl⟩
      rw [← hbuf1]
      have hc1 : r1.buffer.len ≤ r1.buffer.capacity := hinv1.buf
      unfold Render.leftover
      split
      · simpa using hc1
      · rename_i hc
        have : ¬ r1.buffer.capacity - r1.buffer.len < (wire (ls.take lu)).length := fun h => hc (Or.inr h)
        omega

theorem octetsField (o : List UInt8) : Blind (Field.octets_to_wire o) := by
  induction o with
  | nil => exact pure
  | cons x xs ih => exact (u8 x).seq ih

theorem bytesField (d : List UInt8) : Blind (Field.bytes_to_wire d) := (u8 _).seq (bytes d)

theorem text (ds : List (List UInt8)) : Blind (Field.text_to_wire ds) := by
  induction ds with
  | nil => exact pure
  | cons d ds ih => exact (bytesField d).seq ih

theorem field (c : Codec) (v : FieldVal) (hv : FieldTyped c v) : Blind (Field.to_wire c v) := by
  cases c <;> cases v <;> simp only [FieldTyped] at hv <;> unfold Field.to_wire
  case name.name n => exact name hv true
  case ipv4.ip o => exact octetsField o
  case ipv6.ip o => exact octetsField o
  case u8.u8 v => exact u8 v
  case u16.u16 v => exact u16 v
  case u32.u32 v => exact u32 v
  case rrtype.rrtype t => exact u16 t.as_u16
  case text.text ds => exact text ds
  case byte_binary.bytes d => exact bytesField d
  case binary.bytes d => exact bytes d

theorem fields (cs : List (Codec × Disp)) (vs : List FieldVal) (hv : FieldsTyped cs vs) : Blind (Field.allTo cs vs) := by
  induction cs generalizing vs with
  | nil =>
    cases vs with
    | nil => exact pure
    | cons v vs => simp [FieldsTyped] at hv
  | cons c cs ih =>
    cases vs with
    | nil => simp [FieldsTyped] at hv
    | cons v vs => exact (field c.1 v hv.1).seq (ih vs hv.2)

theorem rdata {rd : RData} (h : rd.Typed) : Blind rd.to_wire := by
  obtain ⟨cs, hs, hf⟩ := h
  unfold RData.to_wire
  rw [hs]
  exact fields cs rd.fields hf

/-- filling the hole in front of the data -/
theorem _root_.R53.OutBuf.filled (b : OutBuf) (v : UInt16) (body : List UInt8) (hfit : b.len + 2 + body.length ≤ b.capacity) :
    (⟨overwrite (OutBuf.append ⟨b.data, b.len + 2⟩ body).data b.len (be16 v), (OutBuf.append ⟨b.data, b.len + 2⟩ body).len⟩ : OutBuf) =
      b.append (be16 v ++ body) := by
  simp only [OutBuf.append, OutBuf.mk.injEq]
  refine ⟨?_, by simp [be16_length]; omega⟩
  rw [← overwrite_before _ _ _ _ (by rw [be16_length]; exact hfit), be16_length]

theorem _root_.R53.Render.skip_two {r : Render} (hs : r.buffer.len + 2 < r.buffer.capacity) :
    Render.skip 2 r = (.ok (), { r with buffer := ⟨r.buffer.data, r.buffer.len + 2⟩ }) := by
  rw [Render.skip, Render.onBuffer_apply]; unfold OutBuf.skip; rw [if_pos hs]

theorem _root_.R53.Render.skip_none {r : Render} (hs : ¬ r.buffer.len + 2 < r.buffer.capacity) : Render.skip 2 r = (.err, r) := by
  rw [Render.skip, Render.onBuffer_apply]; unfold OutBuf.skip; rw [if_neg hs]

/-- a hole of two octets keeps what is recorded -/
theorem _root_.R53.OutBuf.hole {b : OutBuf} {g : Mem} (hm : g.le (memOf b.contents)) (hs : b.len + 2 ≤ b.capacity) :
    (⟨b.data, b.len + 2⟩ : OutBuf).Inv ∧ g.le (memOf (⟨b.data, b.len + 2⟩ : OutBuf).contents) ∧
      ∃ st : List UInt8, st.length = 2 ∧ (⟨b.data, b.len + 2⟩ : OutBuf) = b.append st := by
  obtain ⟨st, k1, k2, k3⟩ := OutBuf.skipped (b := b) (n := 2) hs
  have k4 : (⟨b.data, b.len + 2⟩ : OutBuf) = b.append st := k3
  refine ⟨hs, ?_, st, k1, k4⟩
  rw [k4, OutBuf.append_contents k2]
  exact Mem.le_append hm _

theorem rdlen {rd : RData} (ht : Total rd.to_wire) (h : Blind rd.to_wire) : Blind (RRset.rdata_to_wire rd) := by
  refine ⟨fun r g b hr hb => ?_⟩
  have hob : (r.on b).buffer = b := rfl
  have hcap : r.buffer.len ≤ r.buffer.capacity := hr.buf
  unfold RRset.rdata_to_wire
  rw [St.get_bind, St.get_bind]
  by_cases hs : r.buffer.len + 2 < r.buffer.capacity
  · have hsb : (r.on b).buffer.len + 2 < (r.on b).buffer.capacity := by rw [hob, hb.len, hb.cap]; exact hs
    rw [St.bind_ok (Render.skip_two hs), St.bind_ok (Render.skip_two hsb)]
    obtain ⟨i1, i2, st, i3, i4⟩ := OutBuf.hole hr.mem (show r.buffer.len + 2 ≤ r.buffer.capacity by omega)
    obtain ⟨j1, j2, st', j3, j4⟩ := OutBuf.hole hb.mem (show b.len + 2 ≤ b.capacity by rw [hb.len, hb.cap]; omega)
    have hr1 : RInv { r with buffer := ⟨r.buffer.data, r.buffer.len + 2⟩ } g := RInv.setBuffer hr i1 i2
    have hb1 : Other { r with buffer := ⟨r.buffer.data, r.buffer.len + 2⟩ } g ⟨b.data, b.len + 2⟩ :=
      ⟨j1, j2, by simp only [hb.len], hb.cap⟩
    have hcap1 : (⟨r.buffer.data, r.buffer.len + 2⟩ : OutBuf).capacity = r.buffer.capacity := rfl
    have hcapb : (⟨b.data, b.len + 2⟩ : OutBuf).capacity = b.capacity := rfl
    have hcb : b.len + 2 ≤ b.capacity := by rw [hb.len, hb.cap]; omega
    rcases h.run _ g _ hr1 hb1 with ⟨r2, body, e1, e2, e3⟩ | ⟨r2, d, d', e1, e2, e3, e4, e5⟩
    · have hlen : r2.buffer.len = r.buffer.len + 2 + body.length := e2.len
      have hfit : r.buffer.len + 2 + body.length ≤ r.buffer.capacity := e2.fit
      have hfitb : b.len + 2 + body.length ≤ b.capacity := by rw [hb.len, hb.cap]; exact hfit
      have e3' : rd.to_wire { r.on b with buffer := ⟨(r.on b).buffer.data, (r.on b).buffer.len + 2⟩ } =
        (.ok (), r2.on (OutBuf.append ⟨b.data, b.len + 2⟩ body)) := e3
      rw [St.bind_ok e1, St.bind_ok e3', St.get_bind, St.get_bind]
      have hl2 : (r2.on (OutBuf.append ⟨b.data, b.len + 2⟩ body)).buffer.len = r2.buffer.len := by
        show b.len + 2 + body.length = _
        rw [hlen, hb.len]
      have hlb : (r.on b).buffer.len = r.buffer.len := hb.len
      rw [hl2, hlb, St.lift_ok_bind (csub_ok (by omega)), St.lift_ok_bind (csub_ok (by omega)), St.lift_ok_bind (csub_ok (by omega)),
        St.lift_ok_bind (csub_ok (by omega))]
      rw [show r2.buffer.len - r.buffer.len - 2 = body.length by omega]
      have hib : (OutBuf.append ⟨b.data, b.len + 2⟩ body).Inv := by
        show b.len + 2 + body.length ≤ (OutBuf.append ⟨b.data, b.len + 2⟩ body).capacity
        rw [OutBuf.append_capacity (by exact hfitb)]; exact hfitb
      have hl3 : (OutBuf.append ⟨b.data, b.len + 2⟩ body).len = b.len + 2 + body.length := rfl
      rw [Render.write_u16_at, Render.write_u16_at_r _ _ _ e2.inv.buf, Render.write_u16_at_r _ _ (r2.on (OutBuf.append ⟨b.data, b.len + 2⟩ body)) hib,
        if_pos (by rw [be16_length]; omega), if_pos (by
          show _ ≤ b.len + 2 + body.length
          rw [be16_length, hb.len]; omega)]
      have f1 := OutBuf.filled r.buffer (UInt16.ofNat body.length) body hfit
      have f2 := OutBuf.filled b (UInt16.ofNat body.length) body hfitb
      have hb2 : r2.buffer = OutBuf.append ⟨r.buffer.data, r.buffer.len + 2⟩ body := e2.buf
      rw [← hb2] at f1
      have hrun : RRset.rdata_to_wire rd r = (.ok (), { r2 with buffer := r.buffer.append (be16 (UInt16.ofNat body.length) ++ body) }) := by
        unfold RRset.rdata_to_wire
        rw [St.get_bind, St.bind_ok (Render.skip_two hs), St.bind_ok e1, St.get_bind, St.lift_ok_bind (csub_ok (by omega)),
          St.lift_ok_bind (csub_ok (by omega)), show r2.buffer.len - r.buffer.len - 2 = body.length by omega,
          Render.write_u16_at, Render.write_u16_at_r _ _ _ e2.inv.buf, if_pos (by rw [be16_length]; omega), f1]
      have hfit2 : r.buffer.len + (be16 (UInt16.ofNat body.length) ++ body).length ≤ r.buffer.capacity := by
        rw [List.length_append, be16_length]; omega
      refine Or.inl ⟨{ r2 with buffer := r.buffer.append (be16 (UInt16.ofNat body.length) ++ body) }, be16 (UInt16.ofNat body.length) ++ body,
        by rw [f1], ?_, ?_⟩
      · rcases emits_rdlen ht r g hr with ⟨r', out, k1, k2, _⟩ | ⟨r', k1, _⟩
        · rw [hrun] at k1
          have hr' : { r2 with buffer := r.buffer.append (be16 (UInt16.ofNat body.length) ++ body) } = r' := congrArg Prod.snd k1
          have hd := k2.data
          have hd2 : r'.data = r.data ++ (be16 (UInt16.ofNat body.length) ++ body) := by
            rw [← hr']; exact OutBuf.append_contents hfit2
          rw [hd2] at hd
          rw [hr', List.append_cancel_left hd]; exact k2
        · rw [hrun] at k1; simp at k1
      · rw [← hb.len]
        simp only [Render.on]
        rw [f2]
    · have e5' : rd.to_wire { r.on b with buffer := ⟨(r.on b).buffer.data, (r.on b).buffer.len + 2⟩ } =
        (.err, r2.on (OutBuf.append ⟨b.data, b.len + 2⟩ d')) := e5
      rw [St.bind_err e1, St.bind_err e5']
      have e2' : r.buffer.len + 2 + d.length ≤ r.buffer.capacity := e2
      refine Or.inr ⟨r2, st ++ d, st' ++ d', rfl, by rw [List.length_append]; omega, ?_, by simp [i3, j3, e4], ?_⟩
      · rw [e3]
        show OutBuf.append ⟨r.buffer.data, r.buffer.len + 2⟩ d = _
        rw [i4, OutBuf.append_append (by omega)]
      · rw [j4, OutBuf.append_append]
        rw [hb.len, hb.cap, j3, e4]; exact e2'
  · have hsb : ¬ (r.on b).buffer.len + 2 < (r.on b).buffer.capacity := by rw [hob, hb.len, hb.cap]; exact hs
    rw [St.bind_err (Render.skip_none hs), St.bind_err (Render.skip_none hsb)]
    refine Or.inr ⟨r, [], [], rfl, by simpa using hcap, by rw [OutBuf.append_nil], rfl, by rw [OutBuf.append_nil]⟩

theorem rr {s : RRset} (hn : s.name.WF) {rd : RData} (h : rd.Typed) : Blind (s.rr_to_wire rd) :=
  (name hn true).seq ((u16 _).seq ((u16 _).seq ((u32 _).seq (rdlen (total_rdata h) (rdata h)))))

theorem rrs {s : RRset} (hn : s.name.WF) (rds : List RData) (h : ∀ rd ∈ rds, rd.Typed) : Blind (s.rrs_to_wire rds) := by
  induction rds with
  | nil => exact pure
  | cons rd rds ih => exact (rr hn (h rd (by simp))).seq (ih fun x hx => h x (by simp [hx]))

theorem rrset {s : RRset} (h : s.Typed) : Blind s.to_wire := by
  unfold RRset.to_wire
  split
  · exact (name h.1 true).seq ((u16 _).seq ((u16 _).seq ((u32 _).seq (u16 _))))
  · exact rrs h.1 _ h.2

theorem sets (ss : List RRset) (h : ∀ s ∈ ss, s.Typed) : Blind (Section.toLoop ss) := by
  induction ss with
  | nil => exact pure
  | cons s ss ih => exact (rrset (h s (by simp))).seq (ih fun x hx => h x (by simp [hx]))

theorem oneSection {s : Section} (h : ∀ ss, s = some ss → ∀ x ∈ ss, x.Typed) : Blind (Section.to_wire s) := by
  match s with
  | none => exact pure
  | some ss => exact sets ss (h ss rfl)

theorem body {m : Response} (hm : m.Typed) : Blind m.body :=
  (oneSection fun sets h => hm.sections .Answer sets h).seq ((oneSection fun sets h => hm.sections .Authority sets h).seq
    (oneSection fun sets h => hm.sections .Additional sets h))

theorem question {q : Question} (h : ∃ ls, ValidName ls ∧ q.name = Name.ofLabels ls) : Blind q.to_wire :=
  (name h true).seq ((u16 _).seq (u16 _))

theorem header (h : Header) : Blind h.to_wire :=
  (u16 _).seq ((u16 _).seq ((u16 _).seq ((u16 _).seq ((u16 _).seq (u16 _)))))

theorem edns (e : Edns) : Blind e.to_wire :=
  (u8 _).seq ((u16 _).seq ((u16 _).seq ((u32 _).seq (u16 _))))

end Blind

/-! ## whole messages -/

/-- a message written to another buffer of the same size -/
theorem Blind.fresh {w : St Render Unit} (h : Blind w) {b1 b2 : List UInt8} (hl : b1.length = b2.length) :
    (w (Render.new b1)).1 = (w (Render.new b2)).1 ∧
      ((w (Render.new b1)).1 = .ok () → (w (Render.new b1)).2.data = (w (Render.new b2)).2.data) ∧
      (w (Render.new b1)).2.data.length = (w (Render.new b2)).2.data.length := by
  have hr0 : RInv (Render.new b1) Mem.none := RInv.new _ _ fun _ => rfl
  have ho : Other (Render.new b1) Mem.none (OutBuf.new b2) :=
    ⟨by simp [OutBuf.new, OutBuf.Inv], by intro i x h; simp [Mem.none] at h, rfl, by simp [OutBuf.new, OutBuf.capacity, Render.new, hl]⟩
  have hon : (Render.new b1).on (OutBuf.new b2) = Render.new b2 := rfl
  have hdat : ∀ (r : Render) (b : OutBuf), (r.on b).data = b.contents := fun _ _ => rfl
  have hn : ∀ b, (OutBuf.new b).contents = [] := fun b => by simp [OutBuf.contents, OutBuf.new]
  have hb1 : (Render.new b1).buffer = OutBuf.new b1 := rfl
  rcases h.run _ _ _ hr0 ho with ⟨r', out, e1, e2, e3⟩ | ⟨r', d, d', e1, e2, e3, e4, e5⟩
  · rw [hon] at e3
    rw [e1, e3]
    have hf := e2.fit
    have hd : r'.data = (r'.on ((OutBuf.new b2).append out)).data := by
      rw [e2.data, hdat, OutBuf.append_contents (by rw [ho.len, ho.cap]; exact hf), hn]
      show (OutBuf.new b1).contents ++ out = _
      rw [hn]
    exact ⟨rfl, fun _ => hd, congrArg List.length hd⟩
  · rw [hon] at e5
    rw [e1, e5]
    refine ⟨rfl, fun h => by simp at h, ?_⟩
    have h1 : r'.data = d := by
      show r'.buffer.contents = d
      rw [e3, OutBuf.append_contents e2, hb1, hn, List.nil_append]
    simp only
    rw [h1, hdat, OutBuf.append_contents (by rw [ho.len, ho.cap, e4]; exact e2), hn, List.nil_append, e4]

/-- what the header writes -/
theorem header_wrote {h : Header} {r r' : Render} {g : Mem} {out : List UInt8} (e : h.to_wire r = (.ok (), r')) (hw : Wrote r r' g out)
    (hr : RInv r g) : out = h.octets := by
  rcases Header.emits_header_octets h r g hr with ⟨r1, o, e1, e2, e3⟩ | ⟨r1, e1, _⟩
  · rw [e] at e1
    have hr' : r' = r1 := congrArg Prod.snd e1
    have h1 := hw.data
    rw [hr', e2.data] at h1
    rw [← List.append_cancel_left h1]
    exact e3
  · rw [e] at e1; simp at e1

/-- `Response::to_wire` on two buffers of one size -/
theorem Response.to_wire_blind {m : Response} (hm : m.Typed) {b1 b2 : List UInt8} (hl : b1.length = b2.length) :
    (m.to_wire (Render.new b1)).1 = (m.to_wire (Render.new b2)).1 ∧
      (∀ n, (m.to_wire (Render.new b1)).1 = .ok n → (m.to_wire (Render.new b1)).2.data = (m.to_wire (Render.new b2)).2.data) := by
  have hr0 : RInv (Render.new b1) Mem.none := RInv.new _ _ fun _ => rfl
  have ho : Other (Render.new b1) Mem.none (OutBuf.new b2) :=
    ⟨by simp [OutBuf.new, OutBuf.Inv], by intro i x h; simp [Mem.none] at h, rfl, by simp [OutBuf.new, OutBuf.capacity, Render.new, hl]⟩
  have hd0 : (Render.new b1).data = [] := by simp [Render.data, OutBuf.contents, Render.new, OutBuf.new]
  have hd0' : (OutBuf.new b2).contents = [] := by simp [OutBuf.contents, OutBuf.new]
  have hon : (Render.new b1).on (OutBuf.new b2) = Render.new b2 := rfl
  rw [← hon]
  generalize Render.new b1 = r0 at *
  generalize OutBuf.new b2 = bo at *
  unfold Response.to_wire
  rcases (Blind.header m.header).run _ _ _ hr0 ho with ⟨r1, out, e1, e2, e3⟩ | ⟨r1, d, d', e1, _, _, _, e3⟩
  · have hout := header_wrote e1 e2 hr0
    subst hout
    have ho1 := ho.append hr0 e2
    rw [St.bind_ok e1, St.bind_ok e3]
    rcases (Blind.question hm.question).run _ _ _ e2.inv ho1 with ⟨r2, q, f1, f2, f3⟩ | ⟨r2, d, d', f1, _, _, _, f3⟩
    · have ho2 := ho1.append e2.inv f2
      rw [St.bind_ok f1, St.bind_ok f3, St.get_bind, St.get_bind]
      have hlen : ∀ {r : Render} {g : Mem} {b : OutBuf}, Other r g b → (r.on b).len = r.len := fun h => h.len
      rw [hlen ho2, sectionsLoop_eq, sectionsLoop_eq]
      have hc1 : (bo.append m.header.octets).contents = m.header.octets := by
        rw [OutBuf.append_contents (by rw [ho.len, ho.cap]; exact e2.fit), hd0', List.nil_append]
      have hc2 : ((bo.append m.header.octets).append q).contents = m.header.octets ++ q := by
        rw [OutBuf.append_contents (by rw [ho1.len, ho1.cap]; exact f2.fit), hc1]
      have hr2d : r2.data = m.header.octets ++ q := by rw [f2.data, e2.data, hd0, List.nil_append]
      have hr2l : r2.len = 12 + q.length := by
        rw [Render.len, ← OutBuf.contents_length f2.inv.buf]
        show r2.data.length = _
        rw [hr2d, List.length_append, Header.octets_length]
      rw [hr2l]
      rcases (Blind.body hm).run _ _ _ f2.inv ho2 with ⟨r3, o, k1, k2, k3⟩ | ⟨r3, d, d', k1, k2, k3, k4, k5⟩
      · have ho3 := ho2.append f2.inv k2
        rw [k1, k3]
        simp only
        rw [hlen ho3]
        refine ⟨rfl, fun n _ => ?_⟩
        rw [k2.data, hr2d]
        show _ = (OutBuf.append _ o).contents
        rw [OutBuf.append_contents (by rw [ho2.len, ho2.cap]; exact k2.fit), hc2]
      · rw [k1, k5]
        simp only
        have hi3 : r3.buffer.Inv := by
          rw [k3]; show _ ≤ _; rw [OutBuf.append_capacity k2]; exact k2
        have k2' : ((bo.append m.header.octets).append q).len + d'.length ≤ ((bo.append m.header.octets).append q).capacity := by
          rw [ho2.len, ho2.cap, k4]; exact k2
        have hi3' : (r3.on (((bo.append m.header.octets).append q).append d')).buffer.Inv := by
          show _ ≤ _
          rw [show (r3.on (((bo.append m.header.octets).append q).append d')).buffer = ((bo.append m.header.octets).append q).append d' from rfl,
            OutBuf.append_capacity k2']
          exact k2'
        have hd3 : r3.data = m.header.octets ++ q ++ d := by
          show r3.buffer.contents = _
          rw [k3, OutBuf.append_contents k2]
          rw [← hr2d]; rfl
        have hd3' : (r3.on (((bo.append m.header.octets).append q).append d')).data = m.header.octets ++ q ++ d' := by
          show OutBuf.contents _ = _
          rw [show (r3.on (((bo.append m.header.octets).append q).append d')).buffer = ((bo.append m.header.octets).append q).append d' from rfl,
            OutBuf.append_contents k2', hc2]
        have hs := truncate_spec m hi3 q d hd3
        have hs' := truncate_spec m hi3' q d' hd3'
        by_cases hne : d = []
        · have hne' : d' = [] := List.length_eq_zero_iff.mp (by rw [k4, hne]; rfl)
          obtain ⟨r4, t1⟩ := hs.2 hne
          obtain ⟨r5, t2⟩ := hs'.2 hne'
          rw [St.bind_panic t1, St.bind_panic t2]
          exact ⟨rfl, fun n h => by simp at h⟩
        · have hne' : d' ≠ [] := fun h => hne (List.length_eq_zero_iff.mp (by rw [← k4, h]; rfl))
          obtain ⟨r4, t1, _, _, t1'⟩ := hs.1 hne
          obtain ⟨r5, t2, _, _, t2'⟩ := hs'.1 hne'
          rw [St.bind_ok t1, St.bind_ok t2]
          exact ⟨rfl, fun n _ => by show r4.data = r5.data; rw [t1', t2']⟩
    · rw [St.bind_err f1, St.bind_err f3]
      exact ⟨rfl, fun n h => by simp at h⟩
  · rw [St.bind_err e1, St.bind_err e3]
    exact ⟨rfl, fun n h => by simp at h⟩

/-- a writer followed by its length -/
theorem Blind.freshLen {w : St Render Unit} (h : Blind w) {f : St Render Nat} (hf : ∀ r, f r = (w >>= fun _ => do let r ← St.get; Pure.pure r.len : St Render Nat) r)
    {b1 b2 : List UInt8} (hl : b1.length = b2.length) :
    (f (Render.new b1)).1 = (f (Render.new b2)).1 ∧
      (∀ n, (f (Render.new b1)).1 = .ok n → (f (Render.new b1)).2.data = (f (Render.new b2)).2.data) := by
  have hr0 : RInv (Render.new b1) Mem.none := RInv.new _ _ fun _ => rfl
  have ho : Other (Render.new b1) Mem.none (OutBuf.new b2) :=
    ⟨by simp [OutBuf.new, OutBuf.Inv], by intro i x h; simp [Mem.none] at h, rfl, by simp [OutBuf.new, OutBuf.capacity, Render.new, hl]⟩
  have hon : (Render.new b1).on (OutBuf.new b2) = Render.new b2 := rfl
  rw [hf, hf]
  have hfr := h.fresh hl
  rcases h.run _ _ _ hr0 ho with ⟨r', out, e1, e2, e3⟩ | ⟨r', d, d', e1, e2, e3, e4, e5⟩
  · rw [hon] at e3
    rw [e1, e3] at hfr
    rw [St.bind_ok e1, St.bind_ok e3, St.get_bind, St.get_bind]
    have := (ho.append hr0 e2).len
    refine ⟨?_, fun n _ => hfr.2.1 rfl⟩
    show Res.ok r'.buffer.len = Res.ok ((OutBuf.new b2).append out).len
    rw [this]
  · rw [hon] at e5
    rw [St.bind_err e1, St.bind_err e5]
    exact ⟨rfl, fun n h => by simp at h⟩

/-! ## a renderer that is used again -/

/-- touches only the buffer -/
structure OnlyBuffer {α : Type} (w : St Render α) : Prop where
  run : ∀ r, (w r).2.table = r.table ∧ (w r).2.item_counts = r.item_counts ∧ (w r).2.label_hashes = r.label_hashes

theorem OnlyBuffer.on {α : Type} (m : St OutBuf α) : OnlyBuffer (Render.onBuffer m) :=
  ⟨fun r => by rw [Render.onBuffer_apply]; exact ⟨rfl, rfl, rfl⟩⟩

theorem OnlyBuffer.unwrap {α : Type} {w : St Render α} (h : OnlyBuffer w) : OnlyBuffer (Response.unwrap w) := by
  refine ⟨fun r => ?_⟩
  have := h.run r
  unfold Response.unwrap
  rcases hw : w r with ⟨x | _ | _, r'⟩ <;> rw [hw] at this <;> exact this

theorem OnlyBuffer.bind {α β : Type} {w : St Render α} {f : α → St Render β} (h : OnlyBuffer w) (hf : ∀ a, OnlyBuffer (f a)) :
    OnlyBuffer (w >>= f) := by
  refine ⟨fun r => ?_⟩
  have h1 := h.run r
  rcases hw : w r with ⟨x | _ | _, r'⟩
  · rw [St.bind_ok hw]
    rw [hw] at h1
    have h2 := (hf x).run r'
    exact ⟨h2.1.trans h1.1, h2.2.1.trans h1.2.1, h2.2.2.trans h1.2.2⟩
  · rw [St.bind_err hw]; rw [hw] at h1; exact h1
  · rw [St.bind_panic hw]; rw [hw] at h1; exact h1

theorem OnlyBuffer.truncate (m : Response) (p : Nat) : OnlyBuffer (m.truncate p) :=
  (OnlyBuffer.on _).unwrap.bind fun _ => (OnlyBuffer.on _).unwrap.bind fun _ => (OnlyBuffer.on _).unwrap.bind fun _ =>
    (OnlyBuffer.on _).unwrap.bind fun _ => (OnlyBuffer.on _).unwrap

/-- the parts of a renderer have their sizes -/
structure Shaped (n : Nat) (r : Render) : Prop where
  tlen : r.table.length = 64
  rows : ∀ v ∈ r.table, v.length = 16
  clen : r.item_counts.length = 64
  hlen : r.label_hashes.length = 128
  cap : r.buffer.capacity = n

theorem RInv.shaped {r : Render} {g : Mem} (h : RInv r g) : Shaped r.buffer.capacity r := ⟨h.tlen, h.rows, h.clen, h.hlen, rfl⟩

theorem Shaped.reset {n : Nat} {r : Render} (h : Shaped n r) : r.reset = Render.new r.buffer.data ∧ r.buffer.data.length = n := by
  refine ⟨?_, h.cap⟩
  unfold Render.reset Render.new
  have ht : r.table.map (fun v => List.replicate v.length (0 : OffSetItem)) = List.replicate BUCKETS (List.replicate RESERVED_ITEMS 0) := by
    apply List.eq_replicate_iff.mpr
    refine ⟨by simp [h.tlen, BUCKETS], ?_⟩
    intro b hb
    obtain ⟨v, hv, rfl⟩ := List.mem_map.mp hb
    rw [h.rows v hv]; rfl
  rw [ht, h.clen, h.hlen]
  rfl

theorem Shaped.new (b : List UInt8) : Shaped b.length (Render.new b) := (RInv.new b Mem.none fun _ => rfl).shaped

theorem Shaped.sent {m : Response} (hm : m.Typed) (b : List UInt8) (hp : (m.to_wire (Render.new b)).1 ≠ .panic) :
    Shaped b.length (m.to_wire (Render.new b)).2 := by
  have hr0 : RInv (Render.new b) Mem.none := RInv.new _ _ fun _ => rfl
  have hc0 : (Render.new b).buffer.capacity = b.length := by simp [Render.new, OutBuf.new, OutBuf.capacity]
  have hd0 : (Render.new b).data = [] := by simp [Render.data, OutBuf.contents, Render.new, OutBuf.new]
  generalize Render.new b = r0 at *
  rw [← hc0]
  unfold Response.to_wire at hp ⊢
  rcases Header.emits_header_octets m.header r0 _ hr0 with ⟨r1, out, h1, h2, h3⟩ | ⟨r1, h1, h2⟩
  · rw [St.bind_ok h1] at hp ⊢
    rcases total_question hm.question r1 _ h2.inv with ⟨r2, q, e1, e2, _⟩ | ⟨r2, e1, e2⟩
    · rw [St.bind_ok e1, St.get_bind] at hp ⊢
      have hd2 : r2.data = m.header.octets ++ q := by rw [e2.data, h2.data, hd0, List.nil_append, h3]
      have hl2 : r2.len = 12 + q.length := by
        rw [Render.len, ← OutBuf.contents_length e2.inv.buf]
        show r2.data.length = _
        rw [hd2, List.length_append, Header.octets_length]
      rw [hl2, sectionsLoop_eq] at hp ⊢
      rcases total_body hm r2 _ e2.inv with ⟨r3, o, f1, f2, _⟩ | ⟨r3, f1, f2⟩
      · rw [f1]
        have := f2.inv.shaped
        rw [f2.cap, e2.cap, h2.cap] at this
        exact this
      · rw [f1] at hp ⊢
        simp only at hp ⊢
        obtain ⟨d, hd⟩ := f2.data
        have hcap := f2.cap
        obtain ⟨g', _, hi3⟩ := f2.inv
        have hsp := truncate_spec m hi3.buf q d (by rw [hd, hd2])
        have honly := (OnlyBuffer.truncate m (12 + q.length)).run r3
        by_cases hne : d = []
        · obtain ⟨r4, t1⟩ := hsp.2 hne
          rw [St.bind_panic t1] at hp
          exact absurd rfl hp
        · obtain ⟨r4, t1, _, t3, _⟩ := hsp.1 hne
          rw [St.bind_ok t1]
          rw [t1] at honly
          show Shaped _ r4
          refine ⟨by rw [honly.1]; exact hi3.tlen, by rw [honly.1]; exact hi3.rows, by rw [honly.2.1]; exact hi3.clen,
            by rw [honly.2.2]; exact hi3.hlen, ?_⟩
          rw [t3, hcap, e2.cap, h2.cap]
    · rw [St.bind_err e1]
      obtain ⟨g', _, hi⟩ := e2.inv
      have := hi.shaped
      rw [e2.cap, h2.cap] at this
      exact this
  · rw [St.bind_err h1]
    obtain ⟨g', _, hi⟩ := h2.inv
    have := hi.shaped
    rw [h2.cap] at this
    exact this

end R53
