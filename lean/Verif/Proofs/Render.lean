import Verif.Model.Render
import Verif.Proofs.Mem
/-!
# `MessageRender`: invariant
-/
namespace R53

namespace OffSetItem

theorem new_nat (l : UInt8) (p : UInt16) (h : UInt32) :
    (new l p h).toNat = h.toNat * 2^32 + (p.toNat * 2^16 + l.toNat) := by
  have hl := l.toNat_lt
  have hp := p.toNat_lt
  have hh := h.toNat_lt
  have e1 : (h.toUInt64 <<< 32).toNat = 2^32 * h.toNat := by
    rw [UInt64.toNat_shiftLeft]; simp [Nat.shiftLeft_eq]; omega
  have e2 : (p.toUInt64 <<< 16).toNat = 2^16 * p.toNat := by
    rw [UInt64.toNat_shiftLeft]; simp [Nat.shiftLeft_eq]; omega
  have e3 : l.toUInt64.toNat = l.toNat := by simp
  unfold new
  rw [UInt64.toNat_or, UInt64.toNat_or, e1, e2, e3, Nat.or_assoc,
    ← Nat.two_pow_add_eq_or_of_lt (show l.toNat < 2^16 by omega),
    ← Nat.two_pow_add_eq_or_of_lt (show 2^16 * p.toNat + l.toNat < 2^32 by omega)]
  omega

theorem new_len (l : UInt8) (p : UInt16) (h : UInt32) : (new l p h).len = l := by
  have hl := l.toNat_lt
  apply UInt8.toNat_inj.mp
  simp only [len, UInt64.toNat_toUInt8, UInt64.toNat_and, new_nat]
  rw [show (0xff : UInt64).toNat = 2^8 - 1 from rfl, Nat.and_two_pow_sub_one_eq_mod]
  omega

theorem new_pos (l : UInt8) (p : UInt16) (h : UInt32) : (new l p h).pos = p := by
  have hl := l.toNat_lt
  have hp := p.toNat_lt
  apply UInt16.toNat_inj.mp
  simp only [pos, UInt64.toNat_toUInt16, UInt64.toNat_shiftRight, UInt64.toNat_and, new_nat]
  rw [show (16 : UInt64).toNat % 64 = 16 from rfl, Nat.shiftRight_and_distrib,
    show (0xffff0000 : UInt64).toNat >>> 16 = 2^16 - 1 from rfl, Nat.and_two_pow_sub_one_eq_mod, Nat.shiftRight_eq_div_pow]
  omega

theorem new_hash (l : UInt8) (p : UInt16) (h : UInt32) : (new l p h).hash = h := by
  have hl := l.toNat_lt
  have hp := p.toNat_lt
  have hh := h.toNat_lt
  apply UInt32.toNat_inj.mp
  simp only [hash, UInt64.toNat_toUInt32, UInt64.toNat_shiftRight, new_nat]
  rw [show (32 : UInt64).toNat % 64 = 32 from rfl, Nat.shiftRight_eq_div_pow]
  omega

end OffSetItem

/-- an octet with the two top bits set -/
theorem mark_iff (b : UInt8) : (b &&& COMPRESS_POINTER_MARK8 = COMPRESS_POINTER_MARK8) ↔ 192 ≤ b.toNat := by
  revert b; apply forall_u8'; decide +kernel

theorem mark_value (b : UInt8) (h : 192 ≤ b.toNat) : (b &&& ~~~ COMPRESS_POINTER_MARK8).toNat = b.toNat - 192 := by
  revert h; revert b; apply forall_u8'; decide +kernel

/-- a recorded item: it spells a name -/
def ItemOK (g : Mem) (it : OffSetItem) : Prop :=
  ∃ ls e, ValidName ls ∧ DecodesM g it.pos.toNat it.pos.toNat ls e ∧ it.pos.toNat ≤ 0x3fff ∧
    it.len.toNat = (nameWire ls).length

/-- `g` holds octets of the message; every table item spells a name within `g` -/
structure RInv (r : Render) (g : Mem) : Prop where
  buf : r.buffer.Inv
  mem : g.le (memOf r.buffer.contents)
  tlen : r.table.length = 64
  rows : ∀ v ∈ r.table, v.length = 16
  clen : r.item_counts.length = 64
  counts : ∀ c ∈ r.item_counts, c ≤ 15
  hlen : r.label_hashes.length = 128
  items : ∀ (b : Nat) (v : List OffSetItem) (c : Nat), r.table[b]? = some v → r.item_counts[b]? = some c → ∀ it ∈ v.take c, ItemOK g it

theorem ItemOK.le {g g' : Mem} (h : g.le g') {it : OffSetItem} (hi : ItemOK g it) : ItemOK g' it := by
  obtain ⟨ls, e, h1, h2, h3, h4⟩ := hi
  exact ⟨ls, e, h1, h2.le h, h3, h4⟩

theorem RInv.le {r : Render} {g g' : Mem} (h : RInv r g) (hg : g.le g') (hm : g'.le (memOf r.buffer.contents)) : RInv r g' :=
  ⟨h.buf, hm, h.tlen, h.rows, h.clen, h.counts, h.hlen, fun b v c hv hc it hit => (h.items b v c hv hc it hit).le hg⟩

/-- a change of the buffer that keeps the recorded octets -/
theorem RInv.setBuffer {r : Render} {g : Mem} (h : RInv r g) {b : OutBuf} (hb : b.Inv) (hm : g.le (memOf b.contents)) :
    RInv { r with buffer := b } g :=
  ⟨hb, hm, h.tlen, h.rows, h.clen, h.counts, h.hlen, h.items⟩

theorem RInv.new (backing : List UInt8) (g : Mem) (hg : ∀ i, g i = none) : RInv (Render.new backing) g := by
  refine ⟨by simp [Render.new, OutBuf.new, OutBuf.Inv], ?_, by simp [Render.new, BUCKETS], ?_, by simp [Render.new, BUCKETS], ?_,
    by simp [Render.new, MAX_LABEL_COUNT], ?_⟩
  · intro i c h; rw [hg] at h; simp at h
  · intro v hv
    simp only [Render.new, List.mem_replicate] at hv
    rw [hv.2]; simp [RESERVED_ITEMS]
  · intro c hc
    simp only [Render.new, List.mem_replicate] at hc
    omega
  · intro b v c _ hc it hit
    simp only [Render.new] at hc
    have hc' := List.mem_replicate.mp (List.mem_of_getElem? hc)
    rw [hc'.2] at hit; simp at hit

namespace Render

theorem at_mem {ob : OutBuf} (hb : ob.Inv) {g : Mem} (hm : g.le (memOf ob.contents)) {p : Nat} {c : UInt8} (h : g p = some c) :
    ob.at_ p = .ok c := by
  have h' := hm p c h
  have hi : p < ob.len := by
    have := (List.getElem?_eq_some_iff.mp h').1
    rw [OutBuf.contents_length hb] at this; exact this
  unfold OutBuf.at_
  rw [if_pos hi]
  apply idx_ok
  simp only [memOf, OutBuf.contents] at h'
  rw [List.getElem?_take_of_lt hi] at h'; exact h'

theorem mem_lt {ob : OutBuf} (hb : ob.Inv) {g : Mem} (hm : g.le (memOf ob.contents)) {p : Nat} {c : UInt8} (h : g p = some c) :
    p < ob.len := by
  have := (List.getElem?_eq_some_iff.mp (hm p c h)).1
  rwa [OutBuf.contents_length hb] at this

/-- the pointer chase reaches the next label of the spelled name, or the root -/
theorem nextLabel_spec {ob : OutBuf} (hb : ob.Inv) {g : Mem} (hm : g.le (memOf ob.contents)) {limit pos : Nat} {ls : List Label} {e : Nat}
    (h : DecodesM g limit pos ls e) (fuel : Nat) (hf : limit < fuel) :
    match ls with
    | [] => ∃ p, nextLabel ob fuel pos = .ok (0, p)
    | l :: ls' => ∃ q lim' e', nextLabel ob fuel pos = .ok (UInt8.ofNat l.length, (q + 1) % 65536) ∧ ValidLabel l ∧
        (q = pos ∨ q < 0x4000) ∧ lim' ≤ limit ∧
        (∀ i (h : i < l.length), g (q + 1 + i) = some l[i]) ∧ DecodesM g lim' (q + 1 + l.length) ls' e' := by
  induction h generalizing fuel with
  | root h1 =>
    cases fuel with
    | zero => omega
    | succ fuel =>
      simp only [nextLabel, at_mem hb hm h1, Res.bind_ok]
      rw [if_neg (by decide)]; exact ⟨_, rfl⟩
  | @label limit pos e l ls h1 h2 h3 h4 ih =>
    cases fuel with
    | zero => omega
    | succ fuel =>
      refine ⟨pos, limit, e, ?_, h1, Or.inl rfl, by omega, h3, h4⟩
      simp only [nextLabel, at_mem hb hm h2, Res.bind_ok]
      rw [if_neg]; · rfl
      rw [mark_iff, u8_len h1.2]; have := h1.2; omega
  | @pointer limit pos ls e' hi lo h1 h2 h3 h4 h5 ih =>
    cases fuel with
    | zero => omega
    | succ fuel =>
      have ih := ih fuel (by omega)
      have hstep : nextLabel ob (fuel + 1) pos = nextLabel ob fuel ((hi.toNat - 192) * 256 + lo.toNat) := by
        simp only [nextLabel, at_mem hb hm h1, Res.bind_ok]
        rw [if_pos ((mark_iff hi).mpr h2), at_mem hb hm h3, Res.bind_ok, mark_value hi h2]
      have hlo := lo.toNat_lt
      have hhi := hi.toNat_lt
      rw [hstep]
      cases ls with
      | nil => exact ih
      | cons l ls =>
        obtain ⟨q, lim', e'', g1, g2, g3, g4, g5, g6⟩ := ih
        refine ⟨q, lim', e'', g1, g2, Or.inr ?_, by omega, g5, g6⟩
        omega

/-- comparing the octets of a label -/
theorem cmpLabelBytes_spec {ob : OutBuf} (hb : ob.Inv) {g : Mem} (hm : g.le (memOf ob.contents)) (l : Label) (p : Nat) (nb : InBuf)
    (hl : ∀ i (h : i < l.length), g (p + i) = some l[i]) (hp : p + l.length < 65536) :
    (cmpLabelBytes ob l.length p nb).1 ≠ .panic ∧ (cmpLabelBytes ob l.length p nb).2.data = nb.data ∧
      (∀ q, (cmpLabelBytes ob l.length p nb).1 = .ok (some q) → q = p + l.length ∧
        (cmpLabelBytes ob l.length p nb).2.pos = nb.pos + l.length ∧ (nb.data.drop nb.pos).take l.length = l ∧
        nb.pos + l.length ≤ nb.data.length ∨ l = []) ∧
      (l = [] → cmpLabelBytes ob l.length p nb = (.ok (some p), nb)) := by
  induction l generalizing p nb with
  | nil => simp [cmpLabelBytes]
  | cons x l ih =>
    have h0 := hl 0 (by simp)
    simp only [Nat.add_zero, List.getElem_cons_zero] at h0
    simp only [List.length_cons, cmpLabelBytes]
    rw [St.bind_ok (s' := nb) (a := x) (by rw [at_mem hb hm h0]; rfl)]
    rw [St.bind_apply, InBuf.read_u8_eq]
    cases hr : nb.data[nb.pos]? with
    | none => simp
    | some c =>
      simp only
      by_cases hxc : x = c
      · subst hxc
        simp only [ne_eq, not_true_eq_false, if_false]
        rw [if_pos (by simp at hp; omega)]
        have hlt : nb.pos < nb.data.length := (List.getElem?_eq_some_iff.mp hr).1
        have hd : nb.data.drop nb.pos = x :: nb.data.drop (nb.pos + 1) := by
          rw [List.drop_eq_getElem_cons hlt]; congr 1
          rw [List.getElem?_eq_getElem hlt] at hr; simpa using hr
        have := ih (p + 1) { nb with pos := nb.pos + 1 } (fun i hi => by
          have := hl (i + 1) (by simp; omega)
          rw [show p + 1 + i = p + (i + 1) by omega, this]; simp) (by simp at hp; omega)
        refine ⟨this.1, this.2.1, ?_, by simp⟩
        intro q hq
        by_cases hl0 : l = []
        · subst hl0
          left
          have := this.2.2.2 rfl
          simp only [List.length_nil] at this hq ⊢
          rw [this] at hq ⊢
          simp only [Res.ok.injEq, Option.some.injEq] at hq
          refine ⟨by omega, by simp, by rw [hd]; simp, by omega⟩
        · rcases this.2.2.1 q hq with ⟨h1, h2, h3, h4⟩ | h1
          · left
            refine ⟨by omega, by rw [h2]; simp; omega, ?_, by simp at h4; omega⟩
            rw [hd, List.take_succ_cons]
            simp only at h3
            rw [h3]
          · exact absurd h1 hl0
      · simp [hxc]

/-- a successful comparison: the name buffer holds the item's spelling at the cursor -/
theorem compareLoop_spec {ob : OutBuf} (hb : ob.Inv) {g : Mem} (hm : g.le (memOf ob.contents)) (fuel : Nat) {limit pos : Nat}
    {ls : List Label} {e : Nat} (h : DecodesM g limit pos ls e) (nb : InBuf) (hlim : limit ≤ ob.len)
    (hp : pos + (nameWire ls).length < 0x4200) (hw : (nameWire ls).length ≤ 255) (hf : nb.data.length - nb.pos < fuel) :
    (compareLoop ob fuel pos nb).1 ≠ .panic ∧ (compareLoop ob fuel pos nb).2.data = nb.data ∧
      ((compareLoop ob fuel pos nb).1 = .ok true → ∃ rest, nb.data.drop nb.pos = nameWire ls ++ rest) := by
  induction fuel generalizing limit pos ls e nb with
  | zero => omega
  | succ fuel ih =>
    have hn := nextLabel_spec hb hm h (ob.len + 1) (by omega)
    simp only [compareLoop]
    cases ls with
    | nil =>
      obtain ⟨p, hn⟩ := hn
      rw [St.bind_ok (s' := nb) (a := (0, p)) (by rw [hn]; rfl), St.bind_apply, InBuf.read_u8_eq]
      cases hr : nb.data[nb.pos]? with
      | none => simp
      | some c =>
        simp only
        by_cases hc : c = 0
        · subst hc
          simp only [ne_eq, not_true_eq_false, if_false, if_true]
          refine ⟨by simp, rfl, fun _ => ?_⟩
          have hlt : nb.pos < nb.data.length := (List.getElem?_eq_some_iff.mp hr).1
          refine ⟨nb.data.drop (nb.pos + 1), ?_⟩
          rw [List.drop_eq_getElem_cons hlt]
          rw [List.getElem?_eq_getElem hlt] at hr
          simp only [Option.some.injEq] at hr
          rw [hr]; rfl
        · simp [hc]
    | cons l ls =>
      obtain ⟨q, lim', e', hn, hv, hq, hl', hg, hd'⟩ := hn
      have hwl : (nameWire (l :: ls)).length = l.length + 1 + (nameWire ls).length := by
        simp only [nameWire]; rw [List.length_append, List.length_append, wire_length_cons]; omega
      rw [St.bind_ok (s' := nb) (a := (UInt8.ofNat l.length, (q + 1) % 65536)) (by rw [hn]; rfl), St.bind_apply, InBuf.read_u8_eq]
      cases hr : nb.data[nb.pos]? with
      | none => simp
      | some c =>
        simp only
        have hlt : nb.pos < nb.data.length := (List.getElem?_eq_some_iff.mp hr).1
        by_cases hc : c = UInt8.ofNat l.length
        · have hlc : c.toNat = l.length := by rw [hc]; exact u8_len hv.2
          have hc0 : c ≠ 0 := by intro h0; rw [h0] at hlc; have := hv.1; simp at hlc; omega
          rw [if_neg (by simpa using hc), if_neg hc0, hlc, Nat.mod_eq_of_lt (by omega)]
          have hcmp := cmpLabelBytes_spec hb hm l (q + 1) { nb with pos := nb.pos + 1 } hg (by omega)
          rw [St.bind_apply]
          generalize hres : cmpLabelBytes ob l.length (q + 1) { nb with pos := nb.pos + 1 } = res at hcmp
          obtain ⟨r1, nb1⟩ := res
          cases r1 with
          | panic => simp at hcmp
          | err => simp at hcmp ⊢; exact hcmp.1
          | ok o =>
            cases o with
            | none => simp at hcmp ⊢; exact hcmp.1
            | some q' =>
              simp only
              have hne : l ≠ [] := by intro h0; rw [h0] at hv; have := hv.1; simp at this
              obtain ⟨h1, h2, h3, h4⟩ := (hcmp.2.2.1 q' rfl).resolve_right hne
              have hdat : nb1.data = nb.data := hcmp.2.1
              simp only at h2 h3 h4
              subst h1
              have ih := ih hd' nb1 (by omega) (by omega) (by omega) (by rw [hdat, h2]; omega)
              refine ⟨ih.1, by rw [ih.2.1, hdat], fun ht => ?_⟩
              obtain ⟨rest, hrest⟩ := ih.2.2 ht
              refine ⟨rest, ?_⟩
              rw [List.drop_eq_getElem_cons hlt]
              rw [List.getElem?_eq_getElem hlt] at hr
              simp only [Option.some.injEq] at hr
              rw [hr, ← List.take_append_drop l.length (nb.data.drop (nb.pos + 1)), h3, List.drop_drop, hc]
              rw [hdat, h2] at hrest
              rw [hrest]
              simp [nameWire]
        · rw [if_pos (by simpa using hc)]; simp

theorem compareItem_spec {ob : OutBuf} (hb : ob.Inv) {g : Mem} (hm : g.le (memOf ob.contents)) (hash : UInt32) {it : OffSetItem}
    (hi : ItemOK g it) {ls : List Label} (hv : ValidName ls) (nb : InBuf) (hnb : nb.data = nameWire ls) :
    (compareItem ob hash it nb).1 ≠ .panic ∧ (compareItem ob hash it nb).2.data = nb.data ∧
      ((compareItem ob hash it nb).1 = .ok true →
        ∃ e, DecodesM g it.pos.toNat it.pos.toNat ls e ∧ it.pos.toNat ≤ 0x3fff) := by
  unfold compareItem
  split
  · simp
  · rename_i hne
    obtain ⟨ls', e, h1, h2, h3, h4⟩ := hi
    have hlen : it.len = UInt8.ofNat nb.len := by
      by_cases h : it.len = UInt8.ofNat nb.len
      · exact h
      · exact absurd (Or.inr h) hne
    have hpos : it.pos.toNat ≤ ob.len := by
      cases h2 with
      | root h => have := mem_lt hb hm h; omega
      | label _ h => have := mem_lt hb hm h; omega
      | pointer _ _ h => have := mem_lt hb hm h; omega
    have h1' := h1.2
    have := compareLoop_spec hb hm (nb.len + 1) h2 nb hpos (by omega) h1' (by simp only [InBuf.len]; omega)
    refine ⟨this.1, this.2.1, fun ht => ⟨e, ?_, h3⟩⟩
    obtain ⟨rest, hr⟩ := this.2.2 ht
    have hl2 : (nameWire ls').length = nb.data.length := by
      rw [← h4, hlen]; apply toNat_ofNat8; simp only [InBuf.len]; rw [hnb]; have := hv.2; omega
    have hr0 : nb.pos = 0 ∧ rest = [] := by
      have := congrArg List.length hr
      rw [List.length_append, List.length_drop, hl2] at this
      have hpl : 0 < nb.data.length := by rw [hnb]; simp [nameWire]
      refine ⟨by omega, List.length_eq_zero_iff.mp (by omega)⟩
    rw [hr0.1, hr0.2, List.append_nil, List.drop_zero, hnb] at hr
    have d1 := Decodes.of_wire (msg := nameWire ls) (rest := []) (limit := 0) (pos := 0) hv.1 (by simp)
    have d2 := Decodes.of_wire (msg := nameWire ls) (rest := []) (limit := 0) (pos := 0) h1.1 (by simp [hr])
    rw [(d1.det d2).1]; exact h2

theorem findItems_spec {ob : OutBuf} (hb : ob.Inv) {g : Mem} (hm : g.le (memOf ob.contents)) (hash : UInt32) (items : List OffSetItem)
    (hi : ∀ it ∈ items, ItemOK g it) {ls : List Label} (hv : ValidName ls) (nb : InBuf) (hnb : nb.data = nameWire ls) :
    (findItems ob hash items nb).1 ≠ .panic ∧
      ∀ off, (findItems ob hash items nb).1 = .ok off → off = NO_OFFSET ∨
        ∃ e, DecodesM g off.toNat off.toNat ls e ∧ off.toNat ≤ 0x3fff := by
  induction items generalizing nb with
  | nil => simp [findItems]
  | cons it items ih =>
    have hc := compareItem_spec hb hm hash (hi it (by simp)) hv nb hnb
    simp only [findItems]
    rw [St.bind_apply]
    generalize compareItem ob hash it nb = res at hc
    obtain ⟨r1, nb1⟩ := res
    cases r1 with
    | panic => simp at hc
    | err => simp
    | ok m =>
      cases m with
      | true =>
        simp only [if_true, St.pure_apply]
        refine ⟨by simp, ?_⟩
        intro off ho
        simp only [Res.ok.injEq] at ho
        subst ho
        exact Or.inr (hc.2.2 rfl)
      | false =>
        simp only [Bool.false_eq_true, if_false]
        exact ih (fun x hx => hi x (by simp [hx])) nb1 (by rw [← hnb]; exact hc.2.1)

theorem bucket_lt (hash : UInt32) : (hash % 64).toNat < 64 := by
  rw [UInt32.toNat_mod]; exact Nat.mod_lt _ (by decide)

theorem find_offset_spec {r : Render} {g : Mem} (h : RInv r g) (hash : UInt32) {ls : List Label} (hv : ValidName ls) :
    find_offset r (nameWire ls) hash ≠ .panic ∧
      ∀ off, find_offset r (nameWire ls) hash = .ok off → off = NO_OFFSET ∨
        ∃ e, DecodesM g off.toNat off.toNat ls e ∧ off.toNat ≤ 0x3fff := by
  unfold find_offset
  have hb := bucket_lt hash
  have ht : (hash % 64).toNat < r.table.length := by rw [h.tlen]; exact hb
  have hc : (hash % 64).toNat < r.item_counts.length := by rw [h.clen]; exact hb
  simp only [idx_of_lt ht, idx_of_lt hc, Res.bind_ok]
  have hrow := h.rows _ (List.getElem_mem ht)
  have hcnt := h.counts _ (List.getElem_mem hc)
  rw [slice_ok (by omega) (by omega), Res.bind_ok]
  refine findItems_spec h.buf h.mem hash _ ?_ hv _ rfl
  intro it hit
  simp only [List.drop_zero, Nat.sub_zero] at hit
  exact h.items _ _ _ (List.getElem?_eq_getElem ht) (List.getElem?_eq_getElem hc) it hit

theorem add_offset_spec {r : Render} {g : Mem} (h : RInv r g) (hash : UInt32) (off : UInt16) (len : UInt8)
    (hi : ItemOK g (OffSetItem.new len off hash)) :
    ∃ r', add_offset r hash off len = .ok r' ∧ RInv r' g ∧ r'.buffer = r.buffer ∧ r'.label_hashes = r.label_hashes := by
  unfold add_offset
  have hb := bucket_lt hash
  have ht : (hash % 64).toNat < r.table.length := by rw [h.tlen]; exact hb
  have hc : (hash % 64).toNat < r.item_counts.length := by rw [h.clen]; exact hb
  simp only [idx_of_lt ht, idx_of_lt hc, Res.bind_ok]
  by_cases hfull : r.item_counts[(hash % 64).toNat] + 1 = RESERVED_ITEMS
  · rw [if_pos hfull]; exact ⟨r, rfl, h, rfl, rfl⟩
  · rw [if_neg hfull]
    have hrow := h.rows _ (List.getElem_mem ht)
    have hcnt := h.counts _ (List.getElem_mem hc)
    simp only [RESERVED_ITEMS] at hfull
    rw [idx_of_lt (by omega), Res.bind_ok]
    refine ⟨_, rfl, ?_, rfl, rfl⟩
    refine ⟨h.buf, h.mem, by simp [h.tlen], ?_, by simp [h.clen], ?_, h.hlen, ?_⟩
    · intro v hv
      rcases List.mem_or_eq_of_mem_set hv with hv | hv
      · exact h.rows v hv
      · rw [hv]; simpa using hrow
    · intro c hc'
      rcases List.mem_or_eq_of_mem_set hc' with hc' | hc'
      · exact h.counts c hc'
      · omega
    · intro b v c hv hc' it hit
      by_cases hbb : b = (hash % 64).toNat
      · subst hbb
        simp only at hv hc'
        rw [List.getElem?_set_self ht] at hv
        rw [List.getElem?_set_self hc] at hc'
        simp only [Option.some.injEq] at hv hc'
        subst hv; subst hc'
        rw [take_succ_last _ _ (by rw [List.length_set]; omega)] at hit
        rcases List.mem_append.mp hit with hit | hit
        · rw [List.take_set_of_le (by omega)] at hit
          exact h.items _ _ _ (List.getElem?_eq_getElem ht) (List.getElem?_eq_getElem hc) it hit
        · simp only [List.getElem_set_self, List.mem_singleton] at hit
          rw [hit]; exact hi
      · simp only at hv hc'
        rw [List.getElem?_set_ne (by omega)] at hv
        rw [List.getElem?_set_ne (by omega)] at hc'
        exact h.items b v c hv hc' it hit

end Render
end R53
