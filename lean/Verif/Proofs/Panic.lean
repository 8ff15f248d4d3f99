import Verif.Proofs.Encode2
/-!
# The first owner name, for any names

After the question the table holds only tails of one name, which differ in length. A search in it never fails and is exact,
whatever the hash function does; so the outcome of writing the first owner name is known without conditions on names.
-/
namespace R53
open Name

/-- the search in a table whose entries differ in length -/
theorem findItems_dict {ob : OutBuf} (hb : ob.Inv) {g : Mem} (hm : g.le (memOf ob.contents)) (es : Dict)
    (hi : ∀ e ∈ es, ItemTag (fun y => y = e.1) g (dictItem e)) (hp : es.Pairwise fun a b => (dictItem a).len ≠ (dictItem b).len)
    {ls : List Label} (hv : ValidName ls) :
    ∃ off nb', Render.findItems ob (Render.hashBytes (nameWire ls)) (es.map dictItem) (InBuf.new (nameWire ls)) = (.ok off, nb') ∧
      (off ≠ NO_OFFSET ↔ ls ∈ es.map (·.1)) := by
  have rest : ∀ (items : List OffSetItem) (nb : InBuf), nb.data = nameWire ls → (∀ it ∈ items, it.len ≠ UInt8.ofNat (nameWire ls).length) →
      Render.findItems ob (Render.hashBytes (nameWire ls)) items nb = (.ok NO_OFFSET, nb) := by
    intro items nb hnb
    induction items with
    | nil => intro _; rfl
    | cons it items ih =>
      intro hne
      simp only [Render.findItems]
      have hcmp : Render.compareItem ob (Render.hashBytes (nameWire ls)) it nb = (.ok false, nb) := by
        unfold Render.compareItem
        rw [if_pos]
        right
        rw [InBuf.len, hnb]; exact hne it (by simp)
      rw [St.bind_ok hcmp, if_neg (by simp)]
      exact ih fun x hx => hne x (by simp [hx])
  induction es with
  | nil => exact ⟨NO_OFFSET, _, rfl, by simp⟩
  | cons e es ih =>
    rw [List.pairwise_cons] at hp
    have htag := hi e (by simp)
    have hc := Render.compareItem_exact hb hm htag hv
    have hpos : (dictItem e).pos ≠ NO_OFFSET := by
      obtain ⟨_, _, _, _, _, h3, _⟩ := htag
      intro he; rw [he] at h3; simp [NO_OFFSET] at h3
    simp only [List.map_cons, Render.findItems]
    by_cases ht : (dictItem e).hash = Render.hashBytes (nameWire ls) ∧ (dictItem e).len = UInt8.ofNat (nameWire ls).length
    · obtain ⟨x, nb', a1, a2, a3, a4, a5⟩ := hc.1 ht
      subst a1
      rw [St.bind_ok a4]
      by_cases hx : ls = e.1
      · rw [if_pos (by simpa using hx)]
        exact ⟨_, nb', rfl, by simp [hpos, hx]⟩
      · rw [if_neg (by simpa using hx)]
        have hne : ∀ y ∈ es, (dictItem y).len ≠ UInt8.ofNat (nameWire ls).length := fun y hy he => hp.1 y hy (by rw [ht.2, he])
        refine ⟨NO_OFFSET, nb', rest _ nb' a5 (by intro it hit; obtain ⟨y, hy, rfl⟩ := List.mem_map.mp hit; exact hne y hy), ?_⟩
        simp only [ne_eq, not_true_eq_false, false_iff, List.mem_cons, not_or]
        refine ⟨hx, fun hmem => ?_⟩
        obtain ⟨y, hy, rfl⟩ := List.mem_map.mp hmem
        exact hne y hy (by unfold dictItem; rw [OffSetItem.new_len])
    · rw [St.bind_ok (hc.2 ht _ rfl)]
      simp only [Bool.false_eq_true, if_false]
      obtain ⟨off, nb', k1, k2⟩ := ih (fun y hy => hi y (by simp [hy])) hp.2
      refine ⟨off, nb', k1, ?_⟩
      rw [k2, List.mem_cons]
      refine ⟨Or.inr, fun h => h.resolve_left ?_⟩
      rintro rfl
      exact ht ⟨dictItem_hash e, by unfold dictItem; rw [OffSetItem.new_len]⟩

/-- the scan stops at the first tail that is found -/
theorem scanLoop_found {F : Nat → Prop} {ls : List Label} (hv : ValidName ls) (g : Mem) (k lu level : Nat) (r : Render)
    (h : RInv r g) (hk : k + lu = ls.length + 1) (hk0 : 0 < k) (hlev : level = lu - 1)
    (hF : ∀ i, i < ls.length → ∃ off, Render.find_offset r (nameWire (ls.drop i)) (Render.hashBytes (nameWire (ls.drop i))) = .ok off ∧ (off ≠ NO_OFFSET ↔ F i)) :
    ∃ lu' off hs, Render.scanLoop (ofLabels ls) true k lu level r = (.ok (lu', off), { r with label_hashes := hs }) ∧
      (∀ i, lu ≤ i → i < lu' → i < ls.length → ¬ F i) ∧ (lu' < ls.length → F lu') := by
  induction k generalizing lu level r with
  | zero => omega
  | succ k ih =>
    have hcount := hv.count
    simp only [Render.scanLoop]
    have e1 : (if lu > 0 then cadd8 level 1 else .ok level) = .ok lu := by
      by_cases h0 : lu > 0
      · rw [if_pos h0, cadd8_ok (by omega)]; congr 1; omega
      · rw [if_neg h0]; congr 1; omega
    rw [St.bind_ok (s' := r) (a := lu) (by rw [e1]; rfl),
      St.bind_ok (s' := r) (a := lu + 1) (by rw [cadd8_ok (by omega)]; rfl)]
    rw [show (ofLabels ls).label_count % 256 = ls.length + 1 by rw [Name.ofLabels_count]; omega]
    by_cases hroot : lu + 1 = ls.length + 1
    · rw [if_pos hroot]
      exact ⟨lu + 1, NO_OFFSET, r.label_hashes, rfl, fun i h1 h2 h3 => by omega, fun h => by omega⟩
    · rw [if_neg hroot]
      have hlu : lu < ls.length := by omega
      rw [St.bind_ok (s' := r) (a := nameWire (ls.drop lu)) (by rw [Render.refData_ofLabels hlu]; rfl)]
      rw [St.get_bind]
      rw [St.bind_ok (s' := r) (a := r.label_hashes[lu]'(by rw [h.hlen]; omega)) (by rw [idx_of_lt (by rw [h.hlen]; omega)]; rfl)]
      generalize hr1 : ({ r with label_hashes := r.label_hashes.set lu (Render.hashBytes (nameWire (ls.drop lu))) } : Render) = r1
      have h1 : RInv r1 g := by rw [← hr1]; exact Render.RInv.setHashes h (by simp [h.hlen])
      have hback : ∀ hs, ({ r1 with label_hashes := hs } : Render) = { r with label_hashes := hs } := by
        intro hs; rw [← hr1]
      have hF1 : ∀ i, i < ls.length → ∃ off, Render.find_offset r1 (nameWire (ls.drop i)) (Render.hashBytes (nameWire (ls.drop i))) = .ok off ∧
          (off ≠ NO_OFFSET ↔ F i) := by
        rw [← hr1]; exact hF
      rw [St.put_bind]
      obtain ⟨off, hf, hf2⟩ := hF1 lu hlu
      simp only [if_true]
      rw [St.get_bind, St.bind_ok (s' := r1) (a := off) (by rw [hf]; rfl)]
      by_cases hoff : off = NO_OFFSET
      · rw [if_neg (by simpa using hoff)]
        obtain ⟨lu', off', hs, a1, a2, a3⟩ := ih (lu + 1) lu r1 h1 (by omega) (by omega) (by omega) hF1
        refine ⟨lu', off', hs, by rw [a1, hback], fun i i1 i2 i3 => ?_, a3⟩
        by_cases he : i = lu
        · subst he; exact fun hx => hf2.mpr hx hoff
        · exact a2 i (by omega) i2 i3
      · rw [if_pos hoff]
        exact ⟨lu, off, r1.label_hashes, by rw [← hr1]; rfl, fun i h1 h2 => by omega, fun _ => hf2.mp hoff⟩

/-- the outcome of writing a name, by what the searches find -/
theorem write_name_found {F : Nat → Prop} {ls : List Label} (hv : ValidName ls) {r : Render} {g : Mem} (h : RInv r g)
    (hF : ∀ i, i < ls.length → ∃ off, Render.find_offset r (nameWire (ls.drop i)) (Render.hashBytes (nameWire (ls.drop i))) = .ok off ∧ (off ≠ NO_OFFSET ↔ F i)) :
    ∃ lu off, Render.ScanOK g ls true lu off ∧ (∀ j, j < lu → j < ls.length → ¬ F j) ∧ (lu < ls.length → F lu) ∧
      (r.buffer.len + (Render.emitted ls lu off).length ≤ r.buffer.capacity → (Render.write_name (ofLabels ls) true r).1 = .ok ()) ∧
      (¬ r.buffer.len + (Render.emitted ls lu off).length ≤ r.buffer.capacity → (Render.write_name (ofLabels ls) true r).1 = .err ∧
        (Render.write_name (ofLabels ls) true r).2.buffer = r.buffer.append (Render.leftover ls lu off (r.buffer.capacity - r.buffer.len))) := by
  unfold Render.write_name
  obtain ⟨hs', h1, h2, h3⟩ := Render.scanLoop_spec hv true g (ofLabels ls).label_count 0 0 r h (by rw [Name.ofLabels_count])
    (by rw [Name.ofLabels_count]; omega) rfl
  obtain ⟨lu, off, hs, k1, k2, k3⟩ := scanLoop_found hv g (ofLabels ls).label_count 0 0 r h (by rw [Name.ofLabels_count])
    (by rw [Name.ofLabels_count]; omega) rfl hF
  rw [k1] at h2 h3
  simp only at h2 h3
  have hhs : hs = hs' := by injection h2
  subst hhs
  have hsc : Render.ScanOK g ls true lu off := by
    rcases h3 with ⟨h3, _⟩ | ⟨a, b, h3, h4⟩
    · cases h3
    · injection h3 with h3; injection h3 with e1 e2; subst e1; subst e2; exact h4
  have hinv1 : RInv { r with label_hashes := hs } g := Render.RInv.setHashes h h1
  refine ⟨lu, off, hsc, fun j a b => k2 j (by omega) a b, k3, ?_⟩
  rw [St.bind_ok k1]
  simp only
  rw [St.get_bind]
  have hem := Render.emitName_exact true hsc { r with label_hashes := hs } h.buf
  simp only at hem
  refine ⟨fun hfit => ?_, fun hfit => ?_⟩
  · rw [St.bind_ok (hem.1 hfit)]
    obtain ⟨hi2, hle, hcont⟩ := Render.RInv.append hinv1 hfit
    simp only at hi2
    have hdec := fun j hj => Render.emitted_decodes hv hsc hinv1 j hj
    simp only at hdec
    have hlu : lu ≤ ls.length + 1 := by rcases hsc with ⟨_, h⟩ | ⟨_, _, h, _⟩ <;> omega
    obtain ⟨r2, hr2, hr2i, hr2b⟩ := Render.registerLoop_spec (e := 0) hv (start := r.buffer.len) lu 0 _ hi2 (by omega) (fun j _ hj => by
      have := hdec j (Or.inl (by omega))
      exact ⟨_, this.1, this.2.1 (by omega), this.2.2 (by omega)⟩)
    have hz : (wire (ls.take 0)).length = 0 := by simp
    rw [hz, Nat.add_zero, Nat.sub_zero] at hr2
    have e : (ofLabels ls).len = (nameWire ls).length := by rw [Name.len, Name.ofLabels_raw, nameWire_eq]
    rw [e, hr2]
  · have hd := hem.2 hfit
    rw [St.bind_err hd]
    exact ⟨rfl, rfl⟩

theorem lookup_isSome {d : Dict} {k : List Label} : (d.lookup k).isSome ↔ k ∈ d.map (·.1) := by
  constructor
  · intro h
    obtain ⟨v, hv⟩ := Option.isSome_iff_exists.mp h
    exact List.mem_map.mpr ⟨_, lookup_mem hv, rfl⟩
  · intro h
    cases hl : d.lookup k with
    | some v => rfl
    | none =>
      obtain ⟨e, he, rfl⟩ := List.mem_map.mp h
      exact absurd rfl (lookup_none hl e he)

/-- a name behind a table whose keys differ in length: written, or else nothing is left behind exactly if the first piece does not fit -/
theorem write_name_any {n : Name} (hn : n.WF) {r : Render} {g : Mem} {d : Dict} (h : RInv r g) (hd : DictOK r g d)
    (hp : d.Pairwise fun a b => (nameWire a.1).length ≠ (nameWire b.1).length) :
    ((Render.write_name n true r).1 = .ok () ∧ r.buffer.len + firstPiece d n.labelList ≤ r.buffer.capacity) ∨
    ((Render.write_name n true r).1 = .err ∧ ((Render.write_name n true r).2.data = r.data ↔ r.buffer.capacity < r.buffer.len + firstPiece d n.labelList)) := by
  obtain ⟨ls, hv, rfl⟩ := hn
  rw [labels_ofLabels hv]
  obtain ⟨lu, off, k1, k2, k3, k5, k6⟩ := write_name_found (F := fun i => (d.lookup (ls.drop i)).isSome) hv h (fun i hi => by
    have hvd : ValidName (ls.drop i) := hv.sublist (List.drop_sublist i ls)
    rw [Render.find_offset_eq h, hd.items]
    obtain ⟨off, nb', e1, e2⟩ := findItems_dict h.buf h.mem (inBucket (Render.hashBytes (nameWire (ls.drop i))) d) (fun e he => by
        obtain ⟨y1, y2, x, y3⟩ := hd.dec e (List.mem_filter.mp he).1
        exact ⟨e.1, x, rfl, y1, by rw [dictItem_pos y2]; exact y3, by rw [dictItem_pos y2]; exact y2, dictItem_len y1, dictItem_hash e⟩)
      (by
        refine (List.Pairwise.filter _ hp).imp_of_mem ?_
        intro a b ha hb hab heq
        have h1 := (hd.dec a (List.mem_filter.mp ha).1).1
        have h2 := (hd.dec b (List.mem_filter.mp hb).1).1
        have := congrArg UInt8.toNat heq
        rw [dictItem_len h1, dictItem_len h2] at this
        exact hab this) hvd
    refine ⟨off, by rw [e1], ?_⟩
    rw [e2, lookup_isSome]
    constructor
    · intro hm
      obtain ⟨e, he, hk⟩ := List.mem_map.mp hm
      exact List.mem_map.mpr ⟨e, (List.mem_filter.mp he).1, hk⟩
    · intro hm
      obtain ⟨e, he, hk⟩ := List.mem_map.mp hm
      refine List.mem_map.mpr ⟨e, List.mem_filter.mpr ⟨he, ?_⟩, hk⟩
      simp only [entryHash, hk, decide_true])
  have hbi : r.buffer.len ≤ r.buffer.capacity := h.buf
  have hlu : lu < ls.length ∨ lu = ls.length + 1 := by rcases k1 with ⟨_, h⟩ | ⟨_, _, h, _⟩ <;> omega
  have hsp := spelled_eq (d := d) (fun j a b => Option.not_isSome_iff_eq_none.mp (k2 j a b)) k3 hlu
  by_cases hfit : r.buffer.len + (Render.emitted ls lu off).length ≤ r.buffer.capacity
  · refine Or.inl ⟨k5 hfit, ?_⟩
    unfold firstPiece
    rw [hsp]
    rcases k1 with ⟨a1, a2⟩ | ⟨_, a1, a2, _⟩
    · have hnw : 0 < (nameWire ls).length := by simp [nameWire]
      rw [if_neg (show ¬ lu < ls.length by omega), if_neg (by omega)]
      simp only [Render.emitted, if_pos a1] at hfit
      exact hfit
    · rw [if_pos a2]
      simp only [Render.emitted, if_neg a1, List.length_append, List.length_cons, List.length_nil] at hfit
      split <;> omega
  · obtain ⟨he, hb⟩ := k6 hfit
    refine Or.inr ⟨he, ?_⟩
    have hfits : r.buffer.len + (Render.leftover ls lu off (r.buffer.capacity - r.buffer.len)).length ≤ r.buffer.capacity := by
      unfold Render.leftover
      split
      · simpa using hbi
      · rename_i hc
        have : ¬ r.buffer.capacity - r.buffer.len < (wire (ls.take lu)).length := fun h => hc (Or.inr h)
        omega
    have hdat : (Render.write_name (ofLabels ls) true r).2.data = r.data ++ Render.leftover ls lu off (r.buffer.capacity - r.buffer.len) := by
      show (Render.write_name (ofLabels ls) true r).2.buffer.contents = r.buffer.contents ++ _
      rw [hb, OutBuf.append_contents hfits]
    rw [hdat]
    have hiff : r.data ++ Render.leftover ls lu off (r.buffer.capacity - r.buffer.len) = r.data ↔
        Render.leftover ls lu off (r.buffer.capacity - r.buffer.len) = [] := by simp
    rw [hiff]
    unfold firstPiece
    rw [hsp]
    rcases k1 with ⟨a1, a2⟩ | ⟨_, a1, a2, _⟩
    · have hnw : 0 < (nameWire ls).length := by simp [nameWire]
      rw [if_neg (show ¬ lu < ls.length by omega), if_neg (by omega)]
      simp only [Render.emitted, if_pos a1] at hfit
      unfold Render.leftover
      rw [if_pos (Or.inl a1)]
      simp only [true_iff]; omega
    · rw [if_pos a2]
      simp only [Render.emitted, if_neg a1, List.length_append, List.length_cons, List.length_nil] at hfit
      unfold Render.leftover
      by_cases h0 : (wire (ls.take lu)).length = 0
      · rw [if_pos h0]
        have : wire (ls.take lu) = [] := List.length_eq_zero_iff.mp h0
        rw [this]
        simp only [ite_self, true_iff]; omega
      · rw [if_neg h0]
        by_cases hc : r.buffer.capacity - r.buffer.len < (wire (ls.take lu)).length
        · rw [if_pos (Or.inr hc)]; simp only [true_iff]; omega
        · rw [if_neg (by rintro (h | h); exact a1 h; exact hc h)]
          have : wire (ls.take lu) ≠ [] := fun hx => h0 (by rw [hx]; rfl)
          simp only [this, false_iff]; omega

/-! ## the tails of one name -/

theorem tailSet_single {ls : List Label} (hv : ValidName ls) {c : List Label} (hc : TailSet [ofLabels ls] c) : ∃ i, i < ls.length ∧ c = ls.drop i := by
  have hc1 := hc.1
  simp only [List.flatMap_cons, List.flatMap_nil, List.append_nil, Name.tails] at hc1
  rw [Name.ofLabels_count, Name.ofLabels_offsets, Name.ofLabels_raw, Nat.add_sub_cancel] at hc1
  obtain ⟨o, ho1, ho2⟩ := List.mem_map.mp hc1
  obtain ⟨i, hi⟩ := List.mem_iff_getElem?.mp ho1
  have hil : i < ls.length := by
    have := (List.getElem?_eq_some_iff.mp hi).1
    rw [List.length_take] at this
    omega
  rw [List.getElem?_take_of_lt hil, starts_getElem? 0 (ls ++ [[]]) i (by simp; omega)] at hi
  simp only [Option.some.injEq, Nat.zero_add] at hi
  refine ⟨i, hil, ?_⟩
  rw [← hi, wire_drop, List.drop_append_of_le_length (by omega), ← nameWire_eq] at ho2
  exact (Render.nameWire_inj (fun l hl => hv.1 l (List.mem_of_mem_drop hl)) hc.2 ho2).symm

theorem tail_length_lt {ls : List Label} {i j : Nat} (hij : i < j) (hj : j ≤ ls.length) :
    (nameWire (ls.drop j)).length < (nameWire (ls.drop i)).length := by
  have h1 : ls.drop i = (ls.drop i).take (j - i) ++ ls.drop j := by
    rw [show ls.drop j = (ls.drop i).drop (j - i) by rw [List.drop_drop]; congr 1; omega, List.take_append_drop]
  rw [h1]
  simp only [nameWire, wire_append, List.length_append]
  have : 0 < (wire ((ls.drop i).take (j - i))).length := by
    rw [List.drop_eq_getElem_cons (by omega), show j - i = (j - i - 1) + 1 by omega, List.take_succ_cons, wire_length_cons]; omega
  omega

/-- tails of one name are told apart by their lengths -/
theorem tails_by_length {ls : List Label} (hv : ValidName ls) {a b : List Label} (ha : TailSet [ofLabels ls] a) (hb : TailSet [ofLabels ls] b)
    (h : (nameWire a).length = (nameWire b).length) : a = b := by
  obtain ⟨i, hi, rfl⟩ := tailSet_single hv ha
  obtain ⟨j, hj, rfl⟩ := tailSet_single hv hb
  rcases Nat.lt_trichotomy i j with hlt | rfl | hlt
  · have := tail_length_lt hlt (ls := ls) (by omega); omega
  · rfl
  · have := tail_length_lt hlt (ls := ls) (by omega); omega

theorem clashFree_single {n : Name} (hn : n.WF) : NoClash (TailSet [n]) := by
  obtain ⟨ls, hv, rfl⟩ := hn
  exact fun a b ha hb h1 _ => tails_by_length hv ha hb h1

theorem follows_head_any {m : Response} (hm : m.Typed) :
    Follows (TailSet [m.question.name]) (m.header.to_wire >>= fun _ => m.question.to_wire) (encHead Memory.table m) := by
  refine (follows_header _ m.header).seq ?_
  have := (follows_name (clashFree_single hm.question) (inS_of_mem (ns := [m.question.name]) hm.question (by simp))).seq
    ((Follows.u16 m.question.typ.as_u16).seq (Follows.u16 m.question.class_.to_u16))
  rw [Enc.seq_octets] at this
  exact this

/-- panics: there are records, and the buffer ends behind the question, before the first piece of the first owner name -/
theorem panic_exact {m : Response} (hm : m.Typed) (backing : List UInt8) (hlo : m.headSize ≤ backing.length) :
    (m.to_wire (Render.new backing)).1 = .panic ↔ m.records ≠ [] ∧ backing.length < m.headSize + (m.firstPiece Memory.table) := by
  have hcap : (Render.new backing).buffer.capacity = backing.length := by simp [Render.new, OutBuf.new, OutBuf.capacity]
  have hdat : (Render.new backing).data = [] := by simp [Render.data, OutBuf.contents, Render.new, OutBuf.new]
  have hl0 : (Render.new backing).buffer.len = 0 := rfl
  have hfh := follows_head_any hm
  have hlen := encHead_length (k := Memory.table) hm
  obtain ⟨r2, a1, a2, a3⟩ := hfh.ok (Render.new backing) Mem.none [] (RInv.new _ _ fun _ => rfl) (DictOK.new _ _) (by simp)
    (by rw [hl0, hcap, hlen]; omega)
  rw [hl0] at a2 a3
  have hd2 : r2.data = (encHead Memory.table m [] 0).1 := by rw [a2.data, hdat, List.nil_append]
  have hl2 : r2.buffer.len = m.headSize := by rw [a2.len, hl0, hlen]; omega
  have hc2 : r2.buffer.capacity = backing.length := by rw [a2.cap, hcap]
  have hrun : m.to_wire (Render.new backing) = m.sectionsLoop m.headSize [m.answer, m.authority, m.additional] r2 := by
    obtain ⟨_, r1, b1, b2⟩ := St.bind_ok_inv a1
    unfold Response.to_wire
    rw [St.bind_ok b1, St.bind_ok b2, St.get_bind]
    show m.sectionsLoop r2.buffer.len _ r2 = _
    rw [hl2]
  have hkeep := hfh.keeps [] 0 (by simp)
  have hpw : (encHead Memory.table m [] 0).2.Pairwise fun a b => (nameWire a.1).length ≠ (nameWire b.1).length := by
    have hk : (encHead Memory.table m [] 0).2.Pairwise fun a b => a.1 ≠ b.1 := by
      have := a3.keys
      unfold List.Nodup at this
      rwa [List.pairwise_map] at this
    refine hk.imp_of_mem ?_
    intro a b ha hb hab heq
    obtain ⟨ls, hv, hq⟩ := hm.question
    rw [hq] at hkeep
    exact hab (tails_by_length hv (hkeep a ha) (hkeep b hb) heq)
  rw [hrun, sectionsLoop_eq]
  rcases startsWith_body hm with ⟨k1, k2⟩ | ⟨x, rest, k1, k2, k3⟩
  · rw [k2]; simp [k1]
  have hfp : (m.firstPiece Memory.table) = firstPiece (encHead Memory.table m [] 0).2 x.name.labelList := by unfold Response.firstPiece; rw [k1]
  have hne : m.records ≠ [] := by rw [k1]; simp
  simp only [ne_eq, hne, not_false_eq_true, true_and]
  have hnm := write_name_any k2 a2.inv a3 hpw
  rw [hl2, hc2, ← hfp] at hnm
  rcases total_body hm r2 _ a2.inv with ⟨r3, out, f1, _⟩ | ⟨r3, f1, f2⟩
  · rw [f1]
    simp only [reduceCtorEq, false_iff]
    rcases hnm with ⟨_, h⟩ | ⟨h, _⟩
    · omega
    · obtain ⟨rest', _, k5⟩ := k3
      rw [k5] at f1
      rw [St.bind_err (s' := (Render.write_name x.name true r2).2) (by rw [← h])] at f1
      simp at f1
  · rw [f1]
    simp only
    obtain ⟨dx, hdx⟩ := f2.data
    obtain ⟨g', _, hi3⟩ := f2.inv
    have hsp := truncate_spec m hi3.buf (m.question.name.raw ++ (be16 m.question.typ.as_u16 ++ be16 m.question.class_.to_u16)) dx (by rw [hdx, hd2, encHead_eq hm])
    have hql : 12 + (m.question.name.raw ++ (be16 m.question.typ.as_u16 ++ be16 m.question.class_.to_u16)).length = m.headSize := by
      simp only [List.length_append, be16_length, Response.headSize]
    rw [hql] at hsp
    have hkey : dx = [] ↔ backing.length < m.headSize + (m.firstPiece Memory.table) := by
      rcases hnm with ⟨h, h'⟩ | ⟨h, h'⟩
      · have := body_data k2 k3 a2.inv h f1
        constructor
        · intro hd0; exact absurd (by rw [hdx, hd0, List.append_nil]) this
        · intro; omega
      · obtain ⟨rest', _, k5⟩ := k3
        have f1' := f1
        rw [k5, St.bind_err (s' := (Render.write_name x.name true r2).2) (by rw [← h])] at f1'
        simp only [Prod.mk.injEq, true_and] at f1'
        rw [f1', hdx] at h'
        rw [← h']; simp
    rw [← hkey]
    constructor
    · intro hp
      refine Classical.byContradiction fun hd0 => ?_
      obtain ⟨r4, t1, _⟩ := hsp.1 hd0
      have : (do m.truncate m.headSize; pure m.headSize : St Render Nat) r3 = (.ok m.headSize, r4) := St.bind_ok t1
      rw [this] at hp; simp at hp
    · intro hp
      obtain ⟨r4, t1⟩ := hsp.2 hp
      have : (do m.truncate m.headSize; pure m.headSize : St Render Nat) r3 = (.panic, r4) := St.bind_panic t1
      rw [this]

end R53
