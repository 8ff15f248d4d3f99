import Verif.Proofs.Straight
/-!
# A search looks at few octets of the message
-/
namespace R53
namespace Render
open Name (ofLabels)

theorem look_succ (ob : OutBuf) (p k : Nat) (nb : InBuf) : look ob p (nb, k + 1) = (ob.at_ p, (nb, k)) := rfl

theorem nameOctet_apply (nb : InBuf) (k : Nat) : nameOctet (nb, k) = ((InBuf.read_u8 nb).1, ((InBuf.read_u8 nb).2, k)) := rfl

/-- the next label takes three octets at most: a pointer, and the length it leads to -/
theorem nextLabelIn_spec {ob : OutBuf} (hb : ob.Inv) {g : Mem} (hm : g.le (memOf ob.contents)) {pos : Nat} {ls : List Label}
    (h : Straight g pos ls) (nb : InBuf) (k : Nat) :
    ∃ k', k ≤ k' ∧ nextLabelIn ob (ob.len + 1) pos (nb, k + 3) = (nextLabel ob (ob.len + 1) pos, (nb, k')) ∧
      match ls with
      | [] => ∃ p, nextLabel ob (ob.len + 1) pos = .ok (0, p)
      | l :: ls' => ∃ q, nextLabel ob (ob.len + 1) pos = .ok (UInt8.ofNat l.length, (q + 1) % 65536) ∧ ValidLabel l ∧
        (q = pos ∨ q < 0x4000) ∧ (∀ i (h : i < l.length), g (q + 1 + i) = some l[i]) ∧ Straight g (q + 1 + l.length) ls' := by
  have direct : ∀ {f k pos : Nat} {c : UInt8}, g pos = some c → c.toNat < 192 →
      nextLabel ob (f + 1) pos = .ok (c, (pos + 1) % 65536) ∧ nextLabelIn ob (f + 1) pos (nb, k + 1) = (.ok (c, (pos + 1) % 65536), (nb, k)) := by
    intro f k pos c hc hlt
    have hn : ¬ c &&& COMPRESS_POINTER_MARK8 = COMPRESS_POINTER_MARK8 := by rw [mark_iff]; omega
    constructor
    · simp only [nextLabel, at_mem hb hm hc, Res.bind_ok]
      rw [if_neg hn]; rfl
    · simp only [nextLabelIn]
      rw [St.bind_ok (look_succ ob pos k nb |>.trans (by rw [at_mem hb hm hc])), if_neg hn]; rfl
  cases h with
  | root h1 =>
    obtain ⟨a, b⟩ := direct (f := ob.len) (k := k + 2) h1 (by decide)
    exact ⟨k + 2, by omega, by rw [a, b], _, a⟩
  | @label _ l ls h1 h2 h3 h4 h5 =>
    obtain ⟨a, b⟩ := direct (f := ob.len) (k := k + 2) h3 (by rw [u8_len h2]; omega)
    exact ⟨k + 2, by omega, by rw [a, b], pos, a, ⟨h1, h2⟩, Or.inl rfl, h4, h5⟩
  | @pointer _ t c _ h1 h2 h3 h4 h5 h6 h7 h8 =>
    have hpl := mem_lt hb hm h1
    have hhi : (UInt8.ofNat (192 + t / 256)).toNat = 192 + t / 256 := toNat_ofNat8 (by omega)
    have hlo : (UInt8.ofNat (t % 256)).toNat = t % 256 := toNat_ofNat8 (by omega)
    have hy : (UInt8.ofNat (192 + t / 256)) &&& COMPRESS_POINTER_MARK8 = COMPRESS_POINTER_MARK8 := by rw [mark_iff]; omega
    have ht : ((UInt8.ofNat (192 + t / 256)) &&& ~~~ COMPRESS_POINTER_MARK8).toNat * 256 + (UInt8.ofNat (t % 256)).toNat = t := by
      rw [mark_value _ (by omega), hhi, hlo]; omega
    obtain ⟨f, hf⟩ : ∃ f, ob.len = f + 1 := ⟨ob.len - 1, by omega⟩
    have e1 : nextLabel ob (ob.len + 1) pos = nextLabel ob (f + 1) t := by
      rw [hf, nextLabel]
      simp only [at_mem hb hm h1, Res.bind_ok]
      rw [if_pos hy, at_mem hb hm h2, Res.bind_ok, ht]
    have e2 : nextLabelIn ob (ob.len + 1) pos (nb, k + 3) = nextLabelIn ob (f + 1) t (nb, k + 1) := by
      rw [hf, nextLabelIn]
      rw [St.bind_ok (look_succ ob pos (k + 2) nb |>.trans (by rw [at_mem hb hm h1])), if_pos hy,
        St.bind_ok (look_succ ob (pos + 1) (k + 1) nb |>.trans (by rw [at_mem hb hm h2])), ht]
    obtain ⟨a, b⟩ := direct (f := f) (k := k) h5 (by omega)
    refine ⟨k, Nat.le_refl _, by rw [e1, e2, a, b], ?_⟩
    rw [e1, a]
    cases h8 with
    | root h => rw [h5] at h; injection h with h; rw [h] at h6; simp at h6
    | @label _ l ls g1 g2 g3 g4 g5 =>
      rw [h5] at g3; injection g3 with g3
      exact ⟨t, by rw [g3], ⟨g1, g2⟩, Or.inr h3, g4, g5⟩
    | pointer g1 g2 g3 =>
      rw [h5] at g1; injection g1 with g1
      rw [g1, toNat_ofNat8 (by omega)] at h7; omega

/-- a comparison that runs with a limit: same outcome; an octet of the name costs at most three of the message -/
def SameIn {α : Type} (a : Res α × InBuf) (nb : InBuf) (k : Nat) (b : Res α × (InBuf × Nat)) : Prop :=
  ∃ k', b = (a.1, (a.2, k')) ∧ a.2.data = nb.data ∧ ∀ x, a.1 = .ok x → nb.pos ≤ a.2.pos ∧ a.2.pos ≤ nb.data.length ∧ k ≤ k' + 3 * (a.2.pos - nb.pos)

/-- the octets of one label -/
theorem cmpLabelBytesIn_spec {ob : OutBuf} (hb : ob.Inv) {g : Mem} (hm : g.le (memOf ob.contents)) (l : Label) (p : Nat) (nb : InBuf) (k : Nat)
    (hl : ∀ i (h : i < l.length), g (p + i) = some l[i]) (hp : p + l.length < 65536) (hpos : nb.pos ≤ nb.data.length)
    (hk : nb.data.length - nb.pos < k) :
    SameIn (cmpLabelBytes ob l.length p nb) nb k (cmpLabelBytesIn ob l.length p (nb, k)) ∧
      ∀ q, (cmpLabelBytes ob l.length p nb).1 = .ok (some q) → q = p + l.length := by
  induction l generalizing p nb k with
  | nil =>
    refine ⟨⟨k, rfl, rfl, fun _ _ => ⟨Nat.le_refl _, hpos, by simp [cmpLabelBytes]⟩⟩, ?_⟩
    intro q hq
    simp only [List.length_nil, cmpLabelBytes, St.pure_apply, Res.ok.injEq, Option.some.injEq] at hq
    simp [hq]
  | cons x l ih =>
    have h0 := hl 0 (by simp)
    simp only [Nat.add_zero, List.getElem_cons_zero] at h0
    obtain ⟨j, rfl⟩ : ∃ j, k = j + 1 := ⟨k - 1, by omega⟩
    simp only [List.length_cons, cmpLabelBytes, cmpLabelBytesIn]
    rw [St.bind_ok (s' := nb) (a := x) (by rw [at_mem hb hm h0]; rfl),
      St.bind_ok (look_succ ob p j nb |>.trans (by rw [at_mem hb hm h0]))]
    rw [St.bind_apply, St.bind_apply, nameOctet_apply, InBuf.read_u8_eq]
    cases hr : nb.data[nb.pos]? with
    | none => exact ⟨⟨j, rfl, rfl, by simp⟩, by simp⟩
    | some c =>
      have hlt : nb.pos < nb.data.length := (List.getElem?_eq_some_iff.mp hr).1
      simp only
      by_cases hxc : x = c
      · subst hxc
        simp only [ne_eq, not_true_eq_false, if_false]
        rw [if_pos (by simp at hp; omega)]
        obtain ⟨⟨k', b1, b2, b3⟩, b4⟩ := ih (p + 1) { nb with pos := nb.pos + 1 } j (fun i hi => by
          have := hl (i + 1) (by simp; omega)
          rw [show p + 1 + i = p + (i + 1) by omega, this]; simp) (by simp at hp; omega) (by simp only; omega) (by simp only; omega)
        refine ⟨⟨k', ?_, b2, fun y hy => ?_⟩, fun q hq => by rw [b4 q hq]; omega⟩
        · rw [if_pos (by simp at hp; omega)]; exact b1
        · have := b3 y hy
          simp only at this
          refine ⟨by omega, this.2.1, by omega⟩
      · rw [if_pos hxc, if_pos hxc]
        refine ⟨⟨j, rfl, rfl, fun _ _ => ?_⟩, by simp⟩
        simp only [St.pure_apply]
        omega

theorem compareLoopIn_spec {ob : OutBuf} (hb : ob.Inv) {g : Mem} (hm : g.le (memOf ob.contents)) (fuel : Nat) {pos : Nat}
    {ls : List Label} (h : Straight g pos ls) (nb : InBuf) (k : Nat)
    (hp : pos + (nameWire ls).length < 0x4200) (hw : (nameWire ls).length ≤ 255) (hpos : nb.pos ≤ nb.data.length)
    (hk : 3 * (nb.data.length - nb.pos) + 3 ≤ k) :
    SameIn (compareLoop ob fuel pos nb) nb k (compareLoopIn ob fuel pos (nb, k)) := by
  induction fuel generalizing pos ls nb k with
  | zero => exact ⟨k, rfl, rfl, fun _ h => by simp [compareLoop] at h⟩
  | succ fuel ih =>
    obtain ⟨j, rfl⟩ : ∃ j, k = j + 3 := ⟨k - 3, by omega⟩
    obtain ⟨k1, hk1, hn, hc⟩ := nextLabelIn_spec hb hm h nb j
    simp only [compareLoop, compareLoopIn]
    cases ls with
    | nil =>
      obtain ⟨p, hc⟩ := hc
      rw [hc] at hn
      rw [St.bind_ok (s' := nb) (a := (0, p)) (by rw [hc]; rfl), St.bind_ok hn, St.bind_apply, St.bind_apply, nameOctet_apply, InBuf.read_u8_eq]
      cases hr : nb.data[nb.pos]? with
      | none => exact ⟨k1, rfl, rfl, by simp⟩
      | some c =>
        have hlt : nb.pos < nb.data.length := (List.getElem?_eq_some_iff.mp hr).1
        simp only
        by_cases h0 : c = 0
        · subst h0
          simp only [ne_eq, not_true_eq_false, if_false, if_true]
          exact ⟨k1, rfl, rfl, fun _ _ => by simp only [St.pure_apply]; omega⟩
        · rw [if_pos h0, if_pos h0]
          exact ⟨k1, rfl, rfl, fun _ _ => by simp only [St.pure_apply]; omega⟩
    | cons l ls =>
      obtain ⟨q, hc, hv, hq, hg, hd⟩ := hc
      have hwl : (nameWire (l :: ls)).length = l.length + 1 + (nameWire ls).length := by
        simp only [nameWire]; rw [List.length_append, List.length_append, wire_length_cons]; omega
      rw [hc] at hn
      rw [St.bind_ok (s' := nb) (a := (UInt8.ofNat l.length, (q + 1) % 65536)) (by rw [hc]; rfl), St.bind_ok hn, St.bind_apply, St.bind_apply,
        nameOctet_apply, InBuf.read_u8_eq]
      cases hr : nb.data[nb.pos]? with
      | none => exact ⟨k1, rfl, rfl, by simp⟩
      | some c =>
        have hlt : nb.pos < nb.data.length := (List.getElem?_eq_some_iff.mp hr).1
        simp only
        by_cases hcl : c = UInt8.ofNat l.length
        · have hlc : c.toNat = l.length := by rw [hcl]; exact u8_len hv.2
          have hc0 : c ≠ 0 := by intro h0; rw [h0] at hlc; have := hv.1; simp at hlc; omega
          have hcn : ¬ c ≠ UInt8.ofNat l.length := fun h => h hcl
          rw [if_neg hcn, if_neg hc0, if_neg hcn, if_neg hc0, hlc, Nat.mod_eq_of_lt (by omega)]
          obtain ⟨⟨k2, b1, b2, b3⟩, b4⟩ := cmpLabelBytesIn_spec hb hm l (q + 1) { nb with pos := nb.pos + 1 } k1 hg (by omega) (by simp only; omega)
            (by simp only; omega)
          rw [St.bind_apply, St.bind_apply, b1]
          generalize cmpLabelBytes ob l.length (q + 1) { nb with pos := nb.pos + 1 } = res at b2 b3 b4
          obtain ⟨x1, nb1⟩ := res
          simp only at b2 b3 b4
          cases x1 with
          | panic => exact ⟨k2, rfl, b2, by simp⟩
          | err => exact ⟨k2, rfl, b2, by simp⟩
          | ok o =>
            have b3 := b3 o rfl
            cases o with
            | none => exact ⟨k2, rfl, b2, fun _ _ => by simp only [St.pure_apply]; omega⟩
            | some q' =>
              simp only
              have hqq := b4 q' rfl
              subst hqq
              rw [show q + 1 + l.length = (q + 1) + l.length by omega] at hd
              obtain ⟨k3, c1, c2, c3⟩ := ih hd nb1 k2 (by omega) (by omega) (by rw [b2]; omega) (by rw [b2]; omega)
              refine ⟨k3, c1, c2.trans b2, fun x hx => ?_⟩
              have := c3 x hx
              rw [b2] at this
              exact ⟨by omega, this.2.1, by omega⟩
        · rw [if_pos (by simpa using hcl), if_pos (by simpa using hcl)]
          exact ⟨k1, rfl, rfl, fun _ _ => by simp only [St.pure_apply]; omega⟩

/-- the entries of a bucket, one after the other -/
theorem findItemsIn_spec {ob : OutBuf} (hb : ob.Inv) {g : Mem} (hm : g.le (memOf ob.contents)) (hash : UInt32) (es : Dict)
    (he : ∀ e ∈ es, ValidName e.1 ∧ Stands g e) (nb : InBuf) (k : Nat) (hpos : nb.pos ≤ nb.data.length) (hk : 3 * (nb.data.length - nb.pos) + 3 ≤ k) :
    (findItemsIn ob hash (es.map dictItem) (nb, k)).1 = (findItems ob hash (es.map dictItem) nb).1 := by
  induction es generalizing nb k with
  | nil => rfl
  | cons e es ih =>
    obtain ⟨hv, hs⟩ := he e (by simp)
    have hrec := ih fun x hx => he x (by simp [hx])
    have hc : SameIn (compareItem ob hash (dictItem e) nb) nb k (compareItemIn ob hash (dictItem e) (nb, k)) := by
      unfold compareItem compareItemIn
      by_cases ht : (dictItem e).hash ≠ hash ∨ (dictItem e).len ≠ UInt8.ofNat nb.len
      · rw [if_pos ht, if_pos ht]
        exact ⟨k, rfl, rfl, fun _ _ => ⟨Nat.le_refl _, hpos, by omega⟩⟩
      · rw [if_neg ht, if_neg ht, dictItem_pos hs.low]
        exact compareLoopIn_spec hb hm _ hs.way nb k (by have := hs.low; have := hv.2; omega) hv.2 hpos hk
    obtain ⟨k', b1, b2, b3⟩ := hc
    simp only [List.map_cons, findItems, findItemsIn]
    rw [St.bind_apply, St.bind_apply, b1]
    generalize compareItem ob hash (dictItem e) nb = res at b2 b3
    obtain ⟨x, nb1⟩ := res
    simp only at b2 b3
    cases x with
    | panic => rfl
    | err => rfl
    | ok m =>
      have b3 := b3 m rfl
      cases m with
      | true => rfl
      | false =>
        simp only [Bool.false_eq_true, if_false]
        exact hrec nb1 k' (by rw [b2]; omega) (by rw [b2]; omega)

theorem find_offset_in_eq {r : Render} {g : Mem} {d : Dict} (h : RInv r g) (hd : DictHas r g d) (hs : ∀ e ∈ d, Stands g e) (name : List UInt8) (hash : UInt32) :
    find_offset_in (3 * name.length + 3) r name hash = find_offset r name hash := by
  have h1 := find_offset_eq h hash name
  rw [h1, hd.items]
  have h2 : find_offset_in (3 * name.length + 3) r name hash = (findItemsIn r.buffer hash (bucketItems r hash) (InBuf.new name, 3 * name.length + 3)).1 := by
    have hb := bucket_lt hash
    have ht : (hash % 64).toNat < r.table.length := by rw [h.tlen]; exact hb
    have hc : (hash % 64).toNat < r.item_counts.length := by rw [h.clen]; exact hb
    have hrow := h.rows _ (List.getElem_mem ht)
    have hcnt := h.counts _ (List.getElem_mem hc)
    unfold find_offset_in bucketItems
    simp only [idx_of_lt ht, idx_of_lt hc, Res.bind_ok]
    rw [slice_ok (by omega) (by omega), Res.bind_ok, List.getElem?_eq_getElem ht, List.getElem?_eq_getElem hc]
    simp only [Option.getD_some, List.drop_zero, Nat.sub_zero]
  rw [h2, hd.items]
  exact findItemsIn_spec h.buf h.mem hash _ (fun e he => ⟨(hd.dec e (List.mem_filter.mp he).1).1, hs e (List.mem_filter.mp he).1⟩) _ _ (Nat.zero_le _)
    (by simp [InBuf.new])

theorem scanLoopIn_eq (name : Name) (compress : Bool) {g : Mem} {d : Dict} (hs : ∀ e ∈ d, Stands g e) (k lu level : Nat) (r : Render)
    (h : RInv r g) (hd : DictHas r g d) : scanLoopIn name compress k lu level r = scanLoop name compress k lu level r := by
  induction k generalizing lu level r with
  | zero => rfl
  | succ k ih =>
    have hl : ∀ {α : Type} (x : Res α) {f f' : α → St Render (Nat × UInt16)} (r : Render), (∀ a, f a r = f' a r) →
        ((St.lift x : St Render α) >>= f) r = ((St.lift x : St Render α) >>= f') r := by
      intro α x f f' r hf
      rw [St.bind_apply, St.bind_apply]
      cases x with
      | ok a => exact hf a
      | err => rfl
      | panic => rfl
    simp only [scanLoop, scanLoopIn]
    refine hl _ r fun lev => hl _ r fun l1 => ?_
    by_cases hl1 : l1 = name.label_count % 256
    · rw [if_pos hl1, if_pos hl1]
    · rw [if_neg hl1, if_neg hl1]
      refine hl _ r fun dd => ?_
      rw [St.get_bind, St.get_bind]
      refine hl _ r fun _ => ?_
      rw [St.put_bind, St.put_bind]
      have h1 := RInv.setHashes h (hs := r.label_hashes.set lu (hashBytes dd)) (by simp [h.hlen])
      have hd1 : DictHas { r with label_hashes := r.label_hashes.set lu (hashBytes dd) } g d := hd.same rfl rfl
      generalize ({ r with label_hashes := r.label_hashes.set lu (hashBytes dd) } : Render) = r1 at h1 hd1
      cases compress with
      | false =>
        simp only [Bool.false_eq_true, if_false]
        exact ih _ _ _ h1 hd1
      | true =>
        simp only [if_true]
        rw [St.get_bind, St.get_bind, find_offset_in_eq h1 hd1 hs]
        refine hl _ r1 fun off => ?_
        by_cases ho : off ≠ NO_OFFSET
        · rw [if_pos ho, if_pos ho]
        · rw [if_neg ho, if_neg ho]; exact ih _ _ _ h1 hd1

theorem write_name_in_eq (name : Name) (compress : Bool) {r : Render} {g : Mem} {d : Dict} (h : RInv r g) (hd : DictHas r g d) (hs : ∀ e ∈ d, Stands g e) :
    write_name_in name compress r = write_name name compress r := by
  unfold write_name_in write_name
  rw [St.bind_apply, St.bind_apply, scanLoopIn_eq name compress hs _ _ _ r h hd]

end Render
end R53
