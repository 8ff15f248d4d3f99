import Verif.Proofs.Codec
/-!
# When `MessageRender` does not fail

`find_offset` goes on reading the name after a mismatch, so it can run out of octets and fail although there is room. It
does not when every item that passes the test on hash and length spells the very name.
-/
namespace R53

/-- two different names of `S` are told apart by length and hash -/
def NoClash (S : List Label → Prop) : Prop :=
  ∀ a b, S a → S b → (nameWire a).length = (nameWire b).length → Render.hashBytes (nameWire a) = Render.hashBytes (nameWire b) → a = b

/-- an item for a name of `S`, with its length and hash -/
def ItemTag (S : List Label → Prop) (g : Mem) (it : OffSetItem) : Prop :=
  ∃ ls e, S ls ∧ ValidName ls ∧ DecodesM g it.pos.toNat it.pos.toNat ls e ∧ it.pos.toNat ≤ 0x3fff ∧
    it.len.toNat = (nameWire ls).length ∧ it.hash = Render.hashBytes (nameWire ls)

def Tagged (S : List Label → Prop) (r : Render) (g : Mem) : Prop :=
  ∀ (b : Nat) (v : List OffSetItem) (c : Nat), r.table[b]? = some v → r.item_counts[b]? = some c → ∀ it ∈ v.take c, ItemTag S g it

theorem ItemTag.le {S : List Label → Prop} {g g' : Mem} (h : g.le g') {it : OffSetItem} (hi : ItemTag S g it) : ItemTag S g' it := by
  obtain ⟨ls, e, h0, h1, h2, h3, h4, h5⟩ := hi
  exact ⟨ls, e, h0, h1, h2.le h, h3, h4, h5⟩

theorem Tagged.le {S : List Label → Prop} {r : Render} {g g' : Mem} (h : Tagged S r g) (hg : g.le g') : Tagged S r g' :=
  fun b v c hv hc it hit => (h b v c hv hc it hit).le hg

theorem Tagged.same {S : List Label → Prop} {r r' : Render} {g : Mem} (h : Tagged S r g) (h1 : r'.table = r.table)
    (h2 : r'.item_counts = r.item_counts) : Tagged S r' g := by
  unfold Tagged; rw [h1, h2]; exact h

theorem Tagged.new (S : List Label → Prop) (backing : List UInt8) (g : Mem) : Tagged S (Render.new backing) g := by
  intro b v c _ hc it hit
  simp only [Render.new] at hc
  have hc' := List.mem_replicate.mp (List.mem_of_getElem? hc)
  rw [hc'.2] at hit; simp at hit

namespace Render
open Name (ofLabels)

/-- comparing the octets of a label when enough of the name is left -/
theorem cmpLabelBytes_exact {ob : OutBuf} (hb : ob.Inv) {g : Mem} (hm : g.le (memOf ob.contents)) (l : Label) (p : Nat) (nb : InBuf)
    (hl : ∀ i (h : i < l.length), g (p + i) = some l[i]) (hp : p + l.length < 65536) (hn : nb.pos + l.length ≤ nb.data.length) :
    ∃ nb', nb'.data = nb.data ∧ cmpLabelBytes ob l.length p nb =
      (if (nb.data.drop nb.pos).take l.length = l then (.ok (some (p + l.length)), { nb with pos := nb.pos + l.length }) else (.ok none, nb')) := by
  induction l generalizing p nb with
  | nil => exact ⟨nb, rfl, by simp [cmpLabelBytes]⟩
  | cons x l ih =>
    have h0 := hl 0 (by simp)
    simp only [Nat.add_zero, List.getElem_cons_zero] at h0
    simp only [List.length_cons] at hn hp ⊢
    simp only [cmpLabelBytes]
    rw [St.bind_ok (s' := nb) (a := x) (by rw [at_mem hb hm h0]; rfl), St.bind_apply, InBuf.read_u8_eq]
    have hlt : nb.pos < nb.data.length := by omega
    rw [List.getElem?_eq_getElem hlt, List.drop_eq_getElem_cons hlt, List.take_succ_cons]
    simp only
    by_cases hx : x = nb.data[nb.pos]
    · rw [if_neg (by simpa using hx), if_pos (by omega)]
      obtain ⟨nb', e1, e2⟩ := ih (p + 1) { nb with pos := nb.pos + 1 } (fun i hi => by
        have := hl (i + 1) (by simp; omega)
        rw [show p + 1 + i = p + (i + 1) by omega, this]; simp) (by omega) (by simp only; omega)
      refine ⟨nb', e1, ?_⟩
      rw [e2]
      by_cases ht : (nb.data.drop (nb.pos + 1)).take l.length = l
      · rw [if_pos ht, if_pos (by rw [ht, hx]), show p + 1 + l.length = p + (l.length + 1) by omega,
          show nb.pos + 1 + l.length = nb.pos + (l.length + 1) by omega]
      · rw [if_neg ht, if_neg (by simp [ht])]
    · refine ⟨{ nb with pos := nb.pos + 1 }, rfl, ?_⟩
      rw [if_pos (by simpa using hx), if_neg (show ¬ (nb.data[nb.pos] :: (nb.data.drop (nb.pos + 1)).take l.length = x :: l) from fun h => by
        simp only [List.cons.injEq] at h; exact hx h.1.symm)]
      rfl

/-- comparing an item with as many octets as its own spelling has: never an error -/
theorem compareLoop_exact {ob : OutBuf} (hb : ob.Inv) {g : Mem} (hm : g.le (memOf ob.contents)) (fuel : Nat) {limit pos : Nat}
    {ls : List Label} {e : Nat} (h : DecodesM g limit pos ls e) (nb : InBuf) (hlim : limit ≤ ob.len)
    (hp : pos + (nameWire ls).length < 0x4200) (hw : (nameWire ls).length ≤ 255) (hf : ls.length < fuel)
    (hn : (nb.data.drop nb.pos).length = (nameWire ls).length) :
    ∃ nb', compareLoop ob fuel pos nb = (.ok (decide (nb.data.drop nb.pos = nameWire ls)), nb') ∧ nb'.data = nb.data := by
  induction fuel generalizing limit pos ls e nb with
  | zero => omega
  | succ fuel ih =>
    have hnx := nextLabel_spec hb hm h (ob.len + 1) (by omega)
    simp only [compareLoop]
    have hlen : nb.pos + (nameWire ls).length ≤ nb.data.length := by
      rw [List.length_drop] at hn
      have : 0 < (nameWire ls).length := by simp [nameWire]
      omega
    have hlt : nb.pos < nb.data.length := by
      have : 0 < (nameWire ls).length := by simp [nameWire]
      omega
    have hdr : nb.data.drop nb.pos = nb.data[nb.pos] :: nb.data.drop (nb.pos + 1) := List.drop_eq_getElem_cons hlt
    cases ls with
    | nil =>
      obtain ⟨p, hnx⟩ := hnx
      rw [St.bind_ok (s' := nb) (a := (0, p)) (by rw [hnx]; rfl), St.bind_apply, InBuf.read_u8_eq, List.getElem?_eq_getElem hlt]
      simp only
      have hrest : nb.data.drop (nb.pos + 1) = [] := by
        apply List.length_eq_zero_iff.mp
        rw [hdr] at hn; simp [nameWire] at hn ⊢; omega
      rw [hdr, hrest]
      clear hdr
      generalize nb.data[nb.pos] = c
      by_cases hc : c = 0
      · subst hc
        exact ⟨{ nb with pos := nb.pos + 1 }, rfl, rfl⟩
      · refine ⟨{ nb with pos := nb.pos + 1 }, ?_, rfl⟩
        rw [show decide ([c] = nameWire []) = false by simp [nameWire, hc]]
        rw [if_pos (show c ≠ 0 from hc)]; rfl
    | cons l ls =>
      obtain ⟨q, lim', e', hnx, hv, hq, hl', hg, hd'⟩ := hnx
      have hwl : (nameWire (l :: ls)).length = l.length + 1 + (nameWire ls).length := by
        simp only [nameWire]; rw [List.length_append, List.length_append, wire_length_cons]; omega
      have hwe : nameWire (l :: ls) = UInt8.ofNat l.length :: (l ++ nameWire ls) := by simp [nameWire]
      have h1 : 0 < (nameWire ls).length := by simp [nameWire]
      rw [St.bind_ok (s' := nb) (a := (UInt8.ofNat l.length, (q + 1) % 65536)) (by rw [hnx]; rfl), St.bind_apply, InBuf.read_u8_eq,
        List.getElem?_eq_getElem hlt]
      simp only
      by_cases hc : nb.data[nb.pos] = UInt8.ofNat l.length
      · have hlc : (nb.data[nb.pos]).toNat = l.length := by rw [hc]; exact u8_len hv.2
        have hc0 : nb.data[nb.pos] ≠ 0 := by intro h0; rw [h0] at hlc; have := hv.1; simp at hlc; omega
        rw [if_neg (by simpa using hc), if_neg hc0, hlc, Nat.mod_eq_of_lt (by omega)]
        obtain ⟨nb1, k1, k2⟩ := cmpLabelBytes_exact hb hm l (q + 1) { nb with pos := nb.pos + 1 } hg (by omega) (by simp only; omega)
        rw [St.bind_apply, k2]
        simp only
        have hsplit : nb.data.drop (nb.pos + 1) = (nb.data.drop (nb.pos + 1)).take l.length ++ nb.data.drop (nb.pos + 1 + l.length) := by
          rw [← List.drop_drop (l := nb.data) (i := l.length) (j := nb.pos + 1), List.take_append_drop]
        by_cases ht : (nb.data.drop (nb.pos + 1)).take l.length = l
        · rw [if_pos ht]
          simp only
          have hlen2 : (nb.data.drop (nb.pos + 1 + l.length)).length = (nameWire ls).length := by
            rw [List.length_drop] at hn ⊢; omega
          obtain ⟨nb', j1, j2⟩ := ih hd' { nb with pos := nb.pos + 1 + l.length } (by omega) (by omega) (by omega) (by simp at hf; omega) hlen2
          refine ⟨nb', ?_, j2⟩
          rw [j1]
          congr 2
          rw [decide_eq_decide, hdr, hwe, hc, hsplit, ht]
          simp
        · rw [if_neg ht]
          refine ⟨nb1, ?_, k1⟩
          have : ¬ (nb.data.drop nb.pos = nameWire (l :: ls)) := by
            intro he
            rw [hdr, hwe] at he
            simp only [List.cons.injEq] at he
            rw [he.2] at ht
            exact ht (List.take_left' rfl)
          rw [show decide (nb.data.drop nb.pos = nameWire (l :: ls)) = false by simpa using this]; rfl
      · rw [if_pos (by simpa using hc)]
        refine ⟨{ nb with pos := nb.pos + 1 }, ?_, rfl⟩
        have : ¬ (nb.data.drop nb.pos = nameWire (l :: ls)) := by
          intro he
          rw [hdr, hwe] at he
          simp only [List.cons.injEq] at he
          exact hc he.1
        rw [show decide (nb.data.drop nb.pos = nameWire (l :: ls)) = false by simpa using this]; rfl

theorem nameWire_inj {a b : List Label} (ha : ∀ l ∈ a, ValidLabel l) (hb : ∀ l ∈ b, ValidLabel l) (h : nameWire a = nameWire b) : a = b := by
  have d1 := Decodes.of_wire (msg := nameWire a) (rest := []) (limit := 0) (pos := 0) ha (by simp)
  have d2 := Decodes.of_wire (msg := nameWire a) (rest := []) (limit := 0) (pos := 0) hb (by simp [h])
  exact (d1.det d2).1

theorem length_lt_nameWire (ls : List Label) : ls.length < (nameWire ls).length := by
  simp only [nameWire, List.length_append, List.length_singleton]
  suffices h : ls.length ≤ (wire ls).length by omega
  induction ls with
  | nil => simp
  | cons l ls ih => rw [wire_length_cons]; simp; omega

/-- an item against a fresh name: the outcome is known, and it is not an error -/
theorem compareItem_exact {S : List Label → Prop} {ob : OutBuf} (hb : ob.Inv) {g : Mem} (hm : g.le (memOf ob.contents)) {it : OffSetItem}
    (hi : ItemTag S g it) {ls : List Label} (hv : ValidName ls) :
    (it.hash = hashBytes (nameWire ls) ∧ it.len = UInt8.ofNat (nameWire ls).length →
      ∃ x nb', S x ∧ (nameWire x).length = (nameWire ls).length ∧ hashBytes (nameWire x) = hashBytes (nameWire ls) ∧
        compareItem ob (hashBytes (nameWire ls)) it (InBuf.new (nameWire ls)) = (.ok (decide (ls = x)), nb') ∧ nb'.data = nameWire ls) ∧
    (¬ (it.hash = hashBytes (nameWire ls) ∧ it.len = UInt8.ofNat (nameWire ls).length) →
      ∀ nb : InBuf, nb.data = nameWire ls → compareItem ob (hashBytes (nameWire ls)) it nb = (.ok false, nb)) := by
  constructor
  · rintro ⟨h1, h2⟩
    obtain ⟨x, e, a0, a1, a2, a3, a4, a5⟩ := hi
    have hpos : it.pos.toNat ≤ ob.len := by
      cases a2 with
      | root h => have := mem_lt hb hm h; omega
      | label _ h => have := mem_lt hb hm h; omega
      | pointer _ _ h => have := mem_lt hb hm h; omega
    have hl : (nameWire x).length = (nameWire ls).length := by
      rw [← a4, h2]; apply toNat_ofNat8; have := hv.2; omega
    unfold compareItem
    have hnl : (InBuf.new (nameWire ls)).len = (nameWire ls).length := rfl
    rw [if_neg (by rw [hnl]; simp [h1, h2]), hnl]
    have := a1.2
    have hlt := length_lt_nameWire x
    obtain ⟨nb', k1, k2⟩ := compareLoop_exact hb hm ((nameWire ls).length + 1) a2 (InBuf.new (nameWire ls)) hpos (by omega) (by omega) (by omega)
      (by simp [InBuf.new, hl])
    refine ⟨x, nb', a0, hl, by rw [← a5, h1], ?_, k2⟩
    rw [k1]
    congr 2
    rw [decide_eq_decide]
    simp only [InBuf.new, List.drop_zero]
    exact ⟨fun h => nameWire_inj hv.1 a1.1 h, fun h => by rw [h]⟩
  · intro hno nb hnb
    unfold compareItem
    rw [if_pos]
    rw [InBuf.len, hnb]
    by_cases h1 : it.hash = hashBytes (nameWire ls)
    · right; intro h2; exact hno ⟨h1, h2⟩
    · left; exact h1

/-- without clashes the search does not fail, and finds the name if an item spells it -/
theorem findItems_exact {S : List Label → Prop} (hS : NoClash S) {ob : OutBuf} (hb : ob.Inv) {g : Mem} (hm : g.le (memOf ob.contents))
    (items : List OffSetItem) (hi : ∀ it ∈ items, ItemTag S g it) {ls : List Label} (hv : ValidName ls) (hls : S ls) :
    ∃ off nb', findItems ob (hashBytes (nameWire ls)) items (InBuf.new (nameWire ls)) = (.ok off, nb') ∧
      ((∃ it ∈ items, it.hash = hashBytes (nameWire ls) ∧ it.len = UInt8.ofNat (nameWire ls).length) → off ≠ NO_OFFSET) := by
  induction items with
  | nil => exact ⟨NO_OFFSET, _, rfl, by simp⟩
  | cons it items ih =>
    have hc := compareItem_exact (S := S) hb hm (hi it (by simp)) hv
    simp only [findItems]
    by_cases ht : it.hash = hashBytes (nameWire ls) ∧ it.len = UInt8.ofNat (nameWire ls).length
    · obtain ⟨x, nb', a1, a2, a3, a4, _⟩ := hc.1 ht
      have hx : ls = x := hS ls x hls a1 a2.symm a3.symm
      rw [St.bind_ok a4]
      simp only [hx, decide_true, if_true]
      refine ⟨it.pos, nb', rfl, fun _ => ?_⟩
      obtain ⟨_, _, _, _, _, h3, _⟩ := hi it (by simp)
      intro he; rw [he] at h3; simp [NO_OFFSET] at h3
    · rw [St.bind_ok (hc.2 ht _ rfl)]
      simp only [Bool.false_eq_true, if_false]
      obtain ⟨off, nb', k1, k2⟩ := ih (fun y hy => hi y (by simp [hy]))
      refine ⟨off, nb', k1, ?_⟩
      rintro ⟨y, hy, hyy⟩
      rcases List.mem_cons.1 hy with rfl | hy
      · exact absurd hyy ht
      · exact k2 ⟨y, hy, hyy⟩

/-- the active items of a bucket -/
def bucketItems (r : Render) (hash : UInt32) : List OffSetItem :=
  (r.table[(hash % 64).toNat]?.getD []).take (r.item_counts[(hash % 64).toNat]?.getD 0)

theorem find_offset_eq {r : Render} {g : Mem} (h : RInv r g) (hash : UInt32) (d : List UInt8) :
    find_offset r d hash = (findItems r.buffer hash (bucketItems r hash) (InBuf.new d)).1 := by
  unfold find_offset bucketItems
  have hb := bucket_lt hash
  have ht : (hash % 64).toNat < r.table.length := by rw [h.tlen]; exact hb
  have hc : (hash % 64).toNat < r.item_counts.length := by rw [h.clen]; exact hb
  simp only [idx_of_lt ht, idx_of_lt hc, Res.bind_ok]
  have hrow := h.rows _ (List.getElem_mem ht)
  have hcnt := h.counts _ (List.getElem_mem hc)
  rw [slice_ok (by omega) (by omega), Res.bind_ok, List.getElem?_eq_getElem ht, List.getElem?_eq_getElem hc]
  simp

theorem bucketItems_tag {S : List Label → Prop} {r : Render} {g : Mem} (h : RInv r g) (ht : Tagged S r g) (hash : UInt32) :
    ∀ it ∈ bucketItems r hash, ItemTag S g it := by
  intro it hit
  unfold bucketItems at hit
  have hb := bucket_lt hash
  have h1 : (hash % 64).toNat < r.table.length := by rw [h.tlen]; exact hb
  have h2 : (hash % 64).toNat < r.item_counts.length := by rw [h.clen]; exact hb
  rw [List.getElem?_eq_getElem h1, List.getElem?_eq_getElem h2] at hit
  exact ht _ _ _ (List.getElem?_eq_getElem h1) (List.getElem?_eq_getElem h2) it hit

theorem find_offset_exact {S : List Label → Prop} (hS : NoClash S) {r : Render} {g : Mem} (h : RInv r g) (ht : Tagged S r g)
    {ls : List Label} (hv : ValidName ls) (hls : S ls) :
    ∃ off, find_offset r (nameWire ls) (hashBytes (nameWire ls)) = .ok off ∧
      ((∃ it ∈ bucketItems r (hashBytes (nameWire ls)), it.hash = hashBytes (nameWire ls) ∧ it.len = UInt8.ofNat (nameWire ls).length) →
        off ≠ NO_OFFSET) := by
  obtain ⟨off, nb', h1, h2⟩ := findItems_exact hS h.buf h.mem _ (bucketItems_tag h ht (hashBytes (nameWire ls))) hv hls
  exact ⟨off, by rw [find_offset_eq h, h1], h2⟩

/-- the hash of each suffix is recorded -/
def HashOK (ls : List Label) (n : Nat) (hs : List UInt32) : Prop :=
  ∀ i, i < n → i < ls.length → hs[i]? = some (hashBytes (nameWire (ls.drop i)))

/-- without clashes the scan does not fail, and records the hashes -/
theorem scanLoop_exact {S : List Label → Prop} (hS : NoClash S) {ls : List Label} (hv : ValidName ls) (hls : ∀ i, i < ls.length → S (ls.drop i))
    (compress : Bool) (g : Mem) (k lu level : Nat) (r : Render)
    (h : RInv r g) (ht : Tagged S r g) (hk : k + lu = ls.length + 1) (hk0 : 0 < k) (hlev : level = lu - 1) (hh : HashOK ls lu r.label_hashes) :
    ∃ lu' off hs, scanLoop (ofLabels ls) compress k lu level r = (.ok (lu', off), { r with label_hashes := hs }) ∧ HashOK ls lu' hs ∧ lu ≤ lu' ∧
      (compress = true → ∀ i, lu ≤ i → i < lu' → i < ls.length →
        ¬ ∃ it ∈ bucketItems r (hashBytes (nameWire (ls.drop i))), it.hash = hashBytes (nameWire (ls.drop i)) ∧
          it.len = UInt8.ofNat (nameWire (ls.drop i)).length) := by
  induction k generalizing lu level r with
  | zero => omega
  | succ k ih =>
    have hcount := hv.count
    simp only [scanLoop]
    have e1 : (if lu > 0 then cadd8 level 1 else .ok level) = .ok lu := by
      by_cases h0 : lu > 0
      · rw [if_pos h0, cadd8_ok (by omega)]; congr 1; omega
      · rw [if_neg h0]; congr 1; omega
    rw [St.bind_ok (s' := r) (a := lu) (by rw [e1]; rfl),
      St.bind_ok (s' := r) (a := lu + 1) (by rw [cadd8_ok (by omega)]; rfl)]
    rw [show (ofLabels ls).label_count % 256 = ls.length + 1 by rw [Name.ofLabels_count]; omega]
    by_cases hroot : lu + 1 = ls.length + 1
    · rw [if_pos hroot]
      exact ⟨lu + 1, NO_OFFSET, r.label_hashes, rfl, fun i hi hi' => hh i (by omega) hi', by omega, fun _ i h1 h2 h3 => by omega⟩
    · rw [if_neg hroot]
      have hlu : lu < ls.length := by omega
      rw [St.bind_ok (s' := r) (a := nameWire (ls.drop lu)) (by rw [refData_ofLabels hlu]; rfl)]
      rw [St.get_bind]
      rw [St.bind_ok (s' := r) (a := r.label_hashes[lu]'(by rw [h.hlen]; omega)) (by rw [idx_of_lt (by rw [h.hlen]; omega)]; rfl)]
      have hh1 : HashOK ls (lu + 1) (r.label_hashes.set lu (hashBytes (nameWire (ls.drop lu)))) := by
        intro i hi hi'
        by_cases he : i = lu
        · subst he
          rw [List.getElem?_set_self (by rw [h.hlen]; omega)]
        · rw [List.getElem?_set_ne (by omega)]; exact hh i (by omega) hi'
      generalize hr1 : ({ r with label_hashes := r.label_hashes.set lu (hashBytes (nameWire (ls.drop lu))) } : Render) = r1
      have h1 : RInv r1 g := by rw [← hr1]; exact RInv.setHashes h (by simp [h.hlen])
      have ht1 : Tagged S r1 g := by rw [← hr1]; exact ht.same rfl rfl
      have hh2 : HashOK ls (lu + 1) r1.label_hashes := by rw [← hr1]; exact hh1
      have hback : ∀ hs, ({ r1 with label_hashes := hs } : Render) = { r with label_hashes := hs } := by
        intro hs; rw [← hr1]
      have hbi : ∀ x, bucketItems r1 x = bucketItems r x := by intro x; rw [← hr1]; rfl
      rw [St.put_bind]
      have hvd : ValidName (ls.drop lu) := hv.sublist (List.drop_sublist lu ls)
      have hrec := ih (lu + 1) lu r1 h1 ht1 (by omega) (by omega) (by omega) hh2
      obtain ⟨off, hf, hf2⟩ := find_offset_exact hS h1 ht1 hvd (hls lu hlu)
      cases compress with
      | false =>
        obtain ⟨lu', off, hs, a1, a2, a3, a4⟩ := hrec
        refine ⟨lu', off, hs, ?_, a2, by omega, by simp⟩
        rw [← hback]; simpa using a1
      | true =>
        simp only [if_true]
        rw [St.get_bind, St.bind_ok (s' := r1) (a := off) (by rw [hf]; rfl)]
        have hself : r1 = { r with label_hashes := r1.label_hashes } := by rw [← hr1]
        by_cases hoff : off = NO_OFFSET
        · rw [if_neg (by simpa using hoff)]
          obtain ⟨lu', off', hs, a1, a2, a3, a4⟩ := hrec
          refine ⟨lu', off', hs, by rw [a1, hback], a2, by omega, fun _ i i1 i2 i3 => ?_⟩
          by_cases he : i = lu
          · subst he; intro hx; rw [← hbi] at hx; exact hf2 hx hoff
          · rw [← hbi]; exact a4 rfl i (by omega) i2 i3
        · rw [if_pos hoff]
          exact ⟨lu, off, r1.label_hashes, by rw [← hself]; rfl, fun i hi hi' => hh2 i (by omega) hi', Nat.le_refl _, fun _ i h1 h2 => by omega⟩

theorem add_offset_tag {S : List Label → Prop} {r : Render} {g : Mem} (h : RInv r g) (ht : Tagged S r g) (hash : UInt32) (off : UInt16) (len : UInt8)
    (hi : ItemTag S g (OffSetItem.new len off hash)) {r' : Render} (ha : add_offset r hash off len = .ok r') : Tagged S r' g := by
  unfold add_offset at ha
  have hb := bucket_lt hash
  have ht' : (hash % 64).toNat < r.table.length := by rw [h.tlen]; exact hb
  have hc : (hash % 64).toNat < r.item_counts.length := by rw [h.clen]; exact hb
  simp only [idx_of_lt ht', idx_of_lt hc, Res.bind_ok] at ha
  by_cases hfull : r.item_counts[(hash % 64).toNat] + 1 = RESERVED_ITEMS
  · rw [if_pos hfull] at ha
    simp only [Res.pure_eq, Res.ok.injEq] at ha; subst ha; exact ht
  · rw [if_neg hfull] at ha
    have hrow := h.rows _ (List.getElem_mem ht')
    have hcnt := h.counts _ (List.getElem_mem hc)
    simp only [RESERVED_ITEMS] at hfull
    rw [idx_of_lt (by omega), Res.bind_ok] at ha
    simp only [Res.pure_eq, Res.ok.injEq] at ha
    subst ha
    intro b v c hv hc' it hit
    by_cases hbb : b = (hash % 64).toNat
    · subst hbb
      simp only at hv hc'
      rw [List.getElem?_set_self ht'] at hv
      rw [List.getElem?_set_self hc] at hc'
      simp only [Option.some.injEq] at hv hc'
      subst hv; subst hc'
      rw [take_succ_last _ _ (by rw [List.length_set]; omega)] at hit
      rcases List.mem_append.mp hit with hit | hit
      · rw [List.take_set_of_le (by omega)] at hit
        exact ht _ _ _ (List.getElem?_eq_getElem ht') (List.getElem?_eq_getElem hc) it hit
      · simp only [List.getElem_set_self, List.mem_singleton] at hit
        rw [hit]; exact hi
    · simp only at hv hc'
      rw [List.getElem?_set_ne (by omega)] at hv
      rw [List.getElem?_set_ne (by omega)] at hc'
      exact ht b v c hv hc' it hit

theorem registerLoop_tag {S : List Label → Prop} {ls : List Label} (hv : ValidName ls) (hls : ∀ i, i < ls.length → S (ls.drop i)) {g : Mem} {start : Nat}
    (k i : Nat) (r : Render) (h : RInv r g) (ht : Tagged S r g) (hh : HashOK ls (i + k) r.label_hashes)
    (hcur : k + i ≤ ls.length + 1) (hik : ∀ j, i ≤ j → j < i + k → ∃ e, DecodesM g start (start + (wire (ls.take j)).length) (ls.drop j) e ∧
        (j < ls.length → g (start + (wire (ls.take j)).length) = some (UInt8.ofNat (ls[j]?.getD []).length)) ∧
        (j = ls.length → g (start + (wire (ls.take j)).length) = some 0)) :
    Tagged S (registerLoop k i (start + (wire (ls.take i)).length) ((nameWire ls).length - (wire (ls.take i)).length) r).2 g := by
  induction k generalizing i r with
  | zero => exact ht
  | succ k ih =>
    obtain ⟨ei, hd, hlt, heq⟩ := hik i (by omega) (by omega)
    have hcount := hv.count
    simp only [registerLoop]
    rw [St.get_bind]
    by_cases hend : i = ls.length
    · rw [St.bind_ok (s' := r) (a := 0) (by rw [at_mem h.buf h.mem (heq hend)]; rfl), if_pos rfl]
      exact ht
    · have hi : i < ls.length := by omega
      have hli : ls[i]?.getD [] = ls[i] := by simp [hi]
      have hlab : ValidLabel ls[i] := hv.1 _ (List.getElem_mem hi)
      have hu := u8_len hlab.2
      rw [St.bind_ok (s' := r) (a := UInt8.ofNat (ls[i]).length) (by rw [at_mem h.buf h.mem (hlt hi), hli]; rfl)]
      rw [if_neg (by intro h0; rw [h0] at hu; have := hlab.1; simp at hu; omega)]
      by_cases hbig : start + (wire (ls.take i)).length > MAX_COMPRESS_POINTER
      · rw [if_pos hbig]; exact ht
      · rw [if_neg hbig]
        simp only [MAX_COMPRESS_POINTER] at hbig
        have hhi : r.label_hashes[i]'(by rw [h.hlen]; omega) = hashBytes (nameWire (ls.drop i)) := by
          have := hh i (by omega) hi
          rw [List.getElem?_eq_getElem (by rw [h.hlen]; omega)] at this
          simpa using this
        rw [St.bind_ok (s' := r) (a := r.label_hashes[i]'(by rw [h.hlen]; omega)) (by rw [idx_of_lt (by rw [h.hlen]; omega)]; rfl)]
        have htd : (nameWire ls).length = (wire (ls.take i)).length + (nameWire (ls.drop i)).length := by
          simp only [nameWire]
          have := congrArg List.length (wire_take_drop ls i)
          rw [List.length_append] at this
          rw [List.length_append, List.length_append]
          omega
        have hwl := hv.2
        have hpos : (UInt16.ofNat (start + (wire (ls.take i)).length)).toNat = start + (wire (ls.take i)).length := by
          apply UInt16.toNat_ofNat_of_lt'; simp only [UInt16.size]; omega
        have hvd : ValidName (ls.drop i) := hv.sublist (List.drop_sublist i ls)
        have htag : ItemTag S g (OffSetItem.new (UInt8.ofNat ((nameWire ls).length - (wire (ls.take i)).length))
            (UInt16.ofNat (start + (wire (ls.take i)).length)) (r.label_hashes[i]'(by rw [h.hlen]; omega))) := by
          refine ⟨ls.drop i, ei, hls i hi, hvd, ?_, ?_, ?_, ?_⟩
          · rw [OffSetItem.new_pos, hpos]; exact hd.mono (by omega)
          · rw [OffSetItem.new_pos, hpos]; omega
          · rw [OffSetItem.new_len, toNat_ofNat8 (by omega)]; omega
          · rw [OffSetItem.new_hash, hhi]
        have hitem : ItemOK g (OffSetItem.new (UInt8.ofNat ((nameWire ls).length - (wire (ls.take i)).length))
            (UInt16.ofNat (start + (wire (ls.take i)).length)) (r.label_hashes[i]'(by rw [h.hlen]; omega))) := by
          obtain ⟨x, e, a0, a1, a2, a3, a4, a5⟩ := htag
          exact ⟨x, e, a1, a2, a3, a4⟩
        obtain ⟨r1, ha, hr1, hbuf, hhs⟩ := add_offset_spec h _ _ _ hitem
        have ht1 := add_offset_tag h ht _ _ _ htag ha
        rw [St.bind_ok (s' := r) (a := r1) (by rw [ha]; rfl), St.put_bind]
        rw [hu, St.bind_ok (s' := r1) (a := ls[i].length + 1) (by rw [cadd8_ok (by have := hlab.2; omega)]; rfl)]
        have hws : (wire (ls.take (i + 1))).length = (wire (ls.take i)).length + (ls[i].length + 1) := by
          rw [wire_take_succ _ _ hi]; omega
        have hle : (wire (ls.take (i + 1))).length ≤ (wire ls).length := wire_take_le ls (i + 1)
        have hnl : (wire ls).length ≤ (nameWire ls).length := by simp [nameWire]
        rw [St.bind_ok (s' := r1) (a := (nameWire ls).length - (wire (ls.take i)).length - (ls[i].length + 1)) (by rw [csub_ok (by omega)]; rfl)]
        have := ih (i + 1) r1 hr1 ht1 (by rw [hhs, show i + 1 + k = i + (k + 1) by omega]; exact hh) (by omega) (fun j h1 h2 => hik j (by omega) (by omega))
        rw [hws] at this
        rw [show start + (wire (ls.take i)).length + (ls[i].length + 1) = start + ((wire (ls.take i)).length + (ls[i].length + 1)) by omega,
          show (nameWire ls).length - (wire (ls.take i)).length - (ls[i].length + 1) = (nameWire ls).length - ((wire (ls.take i)).length + (ls[i].length + 1)) by omega]
        exact this

end Render
end R53
