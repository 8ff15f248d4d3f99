import Verif.Spec.Offset
import Verif.Proofs.Seek2
import Verif.Proofs.Panic
/-!
# Writing a message to a renderer that holds octets already
-/
namespace R53
open Name (ofLabels)

theorem leftover_nil {ls : List Label} {lu : Nat} {off : UInt16} {g : Mem} (hsc : Render.ScanOK g ls true lu off) (hne : ∀ l ∈ ls, l ≠ []) (room : Nat)
    (hno : room < (Render.emitted ls lu off).length) :
    Render.leftover ls lu off room = [] ↔ room < pieceOf ls (Render.emitted ls lu off) := by
  have hnw : 0 < (nameWire ls).length := by simp [nameWire]
  rcases hsc with ⟨a1, a2⟩ | ⟨_, a1, a2, _⟩
  · have he : Render.emitted ls lu off = nameWire ls := by simp only [Render.emitted, if_pos a1]
    rw [he] at hno ⊢
    unfold pieceOf Render.leftover
    rw [if_pos (Or.inl rfl), if_pos (Or.inl a1)]
    simpa using hno
  · have he : (Render.emitted ls lu off).length = (wire (ls.take lu)).length + 2 := by
      simp only [Render.emitted, if_neg a1, List.length_append, List.length_cons, List.length_nil]
    rw [he] at hno
    have hnl : (nameWire ls).length = (wire (ls.take lu)).length + ((ls[lu]'a2).length + 1 + (wire (ls.drop (lu + 1))).length) + 1 := by
      have := congrArg List.length (wire_take_drop ls lu)
      rw [List.drop_eq_getElem_cons a2, List.length_append, wire_length_cons] at this
      simp only [nameWire, List.length_append, List.length_singleton]
      omega
    have hl0 : 0 < (ls[lu]'a2).length := List.length_pos_iff.mpr (hne _ (List.getElem_mem a2))
    have hp : pieceOf ls (Render.emitted ls lu off) = if (wire (ls.take lu)).length = 0 then 2 else (wire (ls.take lu)).length := by
      unfold pieceOf
      rw [he]
      split <;> split <;> omega
    rw [hp]
    unfold Render.leftover
    by_cases h0 : (wire (ls.take lu)).length = 0
    · rw [if_pos h0]
      have : wire (ls.take lu) = [] := List.length_eq_zero_iff.mp h0
      rw [this]
      simp only [ite_self, true_iff]
      omega
    · rw [if_neg h0]
      by_cases hc : room < (wire (ls.take lu)).length
      · rw [if_pos (Or.inr hc)]; simp only [true_iff]; omega
      · rw [if_neg (by rintro (h | h); exact a1 h; exact hc h)]
        have : wire (ls.take lu) ≠ [] := fun hx => h0 (by rw [hx]; rfl)
        simp only [this, false_iff]; omega

/-- a name that is not written leaves no octet behind exactly if it is refused, or there is no room for its first piece -/
theorem write_name_left {ls : List Label} (hv : ValidName ls) {r : Render} {g : Mem} {d : Dict} (h : RInv r g) (hd : DictHas r g d)
    (he : (Render.write_name (ofLabels ls) true r).1 = .err) :
    (Render.write_name (ofLabels ls) true r).2.data = r.data ↔
      ∀ x, seekLabels d r.buffer.len ls = some x → r.buffer.capacity < r.buffer.len + pieceOf ls x.1 := by
  have hne : ∀ l ∈ ls, l ≠ [] := fun l hl hz => by have := (hv.1 l hl).1; simp [hz] at this
  have hbi : r.buffer.len ≤ r.buffer.capacity := h.buf
  unfold Render.write_name at he ⊢
  obtain ⟨hs', h1, h2, h3⟩ := Render.scanLoop_spec hv true g (ofLabels ls).label_count 0 0 r h (by rw [Name.ofLabels_count])
    (by rw [Name.ofLabels_count]; omega) rfl
  rcases scanLoop_seek hv d g (ofLabels ls).label_count 0 0 r h hd (by rw [Name.ofLabels_count])
    (by rw [Name.ofLabels_count]; omega) rfl (fun i hi => by omega) with ⟨lu, off, hs, k1, k2, k3, k4⟩ | ⟨j, r', k1, _, k2, k3, k4⟩
  · rw [k1] at h2 h3
    simp only at h2 h3
    have hhs : hs = hs' := by injection h2
    subst hhs
    have hsc : Render.ScanOK g ls true lu off := by
      rcases h3 with ⟨h3, _⟩ | ⟨a, b, h3, h4⟩
      · cases h3
      · injection h3 with h3; injection h3 with e1 e2; subst e1; subst e2; exact h4
    have hinv1 : RInv { r with label_hashes := hs } g := Render.RInv.setHashes h h1
    have hlu : lu < ls.length ∨ lu = ls.length + 1 := by rcases hsc with ⟨_, h⟩ | ⟨_, _, h, _⟩ <;> omega
    have key : seekLabels d r.buffer.len ls = some (Render.emitted ls lu off, regs Memory.table d r.buffer.len lu ls) := by
      rw [seekLabels_spell lu d _ ls (fun j a b => k3 j (by omega) a b) hlu]
      rcases hsc with ⟨a1, a2⟩ | ⟨_, a1, a2, a3, e, a4⟩
      · rw [if_neg (by omega)]
        simp only [Render.emitted, if_pos a1]
      · rw [if_pos a2]
        obtain ⟨p, hp, hoff⟩ := k4 a2
        have hp16 : off.toNat = p := by
          obtain ⟨e', he', rfl, _⟩ := seek_mem hp
          have := (hd.dec e' he').2.1
          rw [hoff]
          exact UInt16.toNat_ofNat_of_lt' (by simp only [UInt16.size]; omega)
        have hlook := regs_seek d r.buffer.len lu ls (ls.drop lu) (fun j b1 b2 => by have := nameWire_drops b1 b2; omega)
        rw [hp] at hlook
        have hdrop : ls.drop lu = ls[lu] :: ls.drop (lu + 1) := List.drop_eq_getElem_cons a2
        rw [hdrop] at hlook ⊢
        rw [seekLabels, hlook]
        simp only [Render.emitted, if_neg a1, pointerTo, Option.map_some, hp16]
    rw [key]
    rw [St.bind_ok k1] at he ⊢
    simp only at he ⊢
    rw [St.get_bind] at he ⊢
    have hem := Render.emitName_exact true hsc { r with label_hashes := hs } h.buf
    simp only at hem
    by_cases hfit : r.buffer.len + (Render.emitted ls lu off).length ≤ r.buffer.capacity
    · exfalso
      rw [St.bind_ok (hem.1 hfit)] at he
      obtain ⟨hi2, hle, hcont⟩ := Render.RInv.append hinv1 hfit
      simp only at hi2 hle
      have hdec := fun j hj => Render.emitted_decodes hv hsc hinv1 j hj
      simp only at hdec
      obtain ⟨r2, hr2, hr2i, hr2b⟩ := Render.registerLoop_spec (e := 0) hv (start := r.buffer.len) lu 0 _ hi2 (by omega) (fun j _ hj => by
        have := hdec j (Or.inl (by omega))
        exact ⟨_, this.1, this.2.1 (by omega), this.2.2 (by omega)⟩)
      have hz : (wire (ls.take 0)).length = 0 := by simp
      rw [hz, Nat.add_zero, Nat.sub_zero] at hr2
      have e : (ofLabels ls).len = (nameWire ls).length := by rw [Name.len, Name.ofLabels_raw, nameWire_eq]
      rw [e, hr2] at he
      simp at he
    · have hd' := hem.2 hfit
      rw [St.bind_err hd']
      have hfits : r.buffer.len + (Render.leftover ls lu off (r.buffer.capacity - r.buffer.len)).length ≤ r.buffer.capacity := by
        unfold Render.leftover
        split
        · simpa using hbi
        · rename_i hc
          have : ¬ r.buffer.capacity - r.buffer.len < (wire (ls.take lu)).length := fun h => hc (Or.inr h)
          omega
      show (r.buffer.append _).contents = r.buffer.contents ↔ _
      rw [OutBuf.append_contents hfits]
      have hiff : r.buffer.contents ++ Render.leftover ls lu off (r.buffer.capacity - r.buffer.len) = r.buffer.contents ↔
          Render.leftover ls lu off (r.buffer.capacity - r.buffer.len) = [] := by simp
      rw [hiff, leftover_nil hsc hne _ (by omega)]
      simp only [Option.some.injEq, forall_eq']
      omega
  · have key : seekLabels d r.buffer.len ls = none := by
      rw [seekLabels_spell j d _ ls (fun i a b => k3 i (by omega) a) (Or.inl k2), if_pos k2]
      have hlook := regs_seek d r.buffer.len j ls (ls.drop j) (fun i b1 b2 => by have := nameWire_drops b1 b2; omega)
      rw [k4] at hlook
      have hdrop : ls.drop j = ls[j] :: ls.drop (j + 1) := List.drop_eq_getElem_cons k2
      rw [hdrop] at hlook ⊢
      rw [seekLabels, hlook]
      rfl
    rw [key]
    rw [k1] at h2
    simp only at h2
    rw [St.bind_err k1, h2]
    simp [Render.data]

theorem stamped_overwrite (h : Header) (o : List UInt8) (ho : 12 ≤ o.length) :
    overwrite (overwrite (overwrite (overwrite o 2 (be16 (h.set_flag .Truncation true).header_flag)) 6 (be16 0)) 8 (be16 0)) 10 (be16 0) = stamped h o := by
  have hf : h.set_flag .Truncation true = { h with flag := h.flag ||| 0x0200 } := rfl
  unfold stamped
  rw [hf]
  generalize ({ h with flag := h.flag ||| 0x0200 } : Header).header_flag = v
  match o, ho with
  | a0 :: a1 :: a2 :: a3 :: a4 :: a5 :: a6 :: a7 :: a8 :: a9 :: a10 :: a11 :: rest, _ =>
    simp [overwrite, be16]

/-- cutting off behind `o`, with `d` written behind it already -/
theorem truncate_any (m : Response) {r : Render} (hb : r.buffer.Inv) (o d : List UInt8) (ho : 12 ≤ o.length) (hd : r.data = o ++ d) :
    (d ≠ [] → ∃ r', m.truncate o.length r = (.ok (), r') ∧ r'.data = stamped m.header o) ∧
    (d = [] → ∃ r', m.truncate o.length r = (.panic, r')) := by
  have hlen : r.data.length = o.length + d.length := by rw [hd, List.length_append]
  obtain ⟨r1, e1, b1, c1, d1⟩ := write_u16_at_data hb 2 (m.header.set_flag .Truncation true).header_flag (by omega)
  have l1 : r1.data.length = r.data.length := by rw [d1]; exact overwrite_length (by rw [be16_length]; omega)
  obtain ⟨r2, e2, b2, c2, d2⟩ := write_u16_at_data b1 6 0 (by omega)
  have l2 : r2.data.length = r.data.length := by rw [d2, overwrite_length (by rw [be16_length]; omega), l1]
  obtain ⟨r3, e3, b3, c3, d3⟩ := write_u16_at_data b2 8 0 (by omega)
  have l3 : r3.data.length = r.data.length := by rw [d3, overwrite_length (by rw [be16_length]; omega), l2]
  obtain ⟨r4, e4, b4, c4, d4⟩ := write_u16_at_data b3 10 0 (by omega)
  have l4 : r4.data.length = r.data.length := by rw [d4, overwrite_length (by rw [be16_length]; omega), l3]
  have hdata : r4.data = stamped m.header (o ++ d) := by
    rw [d4, d3, d2, d1, hd, stamped_overwrite _ _ (by rw [List.length_append]; omega)]
  have hsplit : stamped m.header (o ++ d) = stamped m.header o ++ d := by
    match o, ho with
    | a0 :: a1 :: a2 :: a3 :: a4 :: a5 :: a6 :: a7 :: a8 :: a9 :: a10 :: a11 :: rest, _ => simp [stamped, be16]
  have hsl : (stamped m.header o).length = o.length := by
    match o, ho with
    | a0 :: a1 :: a2 :: a3 :: a4 :: a5 :: a6 :: a7 :: a8 :: a9 :: a10 :: a11 :: rest, _ => simp [stamped, be16]
  have hbl : r4.buffer.len = o.length + d.length := by rw [← hlen, ← l4]; exact (OutBuf.contents_length b4).symm
  have hrun : m.truncate o.length r = Response.unwrap (Render.truncate o.length) r4 := by
    unfold Response.truncate
    rw [St.bind_ok (unwrap_ok e1), St.bind_ok (unwrap_ok e2), St.bind_ok (unwrap_ok e3), St.bind_ok (unwrap_ok e4)]
  constructor
  · intro hne
    have hpos : 0 < d.length := List.length_pos_iff.mpr hne
    have ht : Render.truncate o.length r4 = (.ok (), { r4 with buffer := { r4.buffer with len := o.length } }) := by
      rw [Render.truncate, Render.onBuffer_apply]; unfold OutBuf.truncate; rw [if_pos (by omega)]
    refine ⟨_, by rw [hrun, unwrap_ok ht], ?_⟩
    have : r4.data = r4.buffer.data.take r4.buffer.len := rfl
    show r4.buffer.data.take o.length = _
    have h2 : r4.buffer.data.take o.length = r4.data.take o.length := by
      rw [this, List.take_take, Nat.min_eq_left (by omega)]
    rw [h2, hdata, hsplit, List.take_left' hsl]
  · intro he
    subst he
    have ht : Render.truncate o.length r4 = (.err, r4) := by
      rw [Render.truncate, Render.onBuffer_apply]; unfold OutBuf.truncate; rw [if_neg (by simp at hbl; omega)]
    exact ⟨r4, by rw [hrun, unwrap_err ht]⟩

/-- a message that is not refused, with room for all of it -/
theorem message_ok {m : Response} (hm : m.Typed) {r : Render} {g : Mem} {d : Dict} (h : RInv r g) (hd : DictHas r g d) {x : Written}
    (hx : Seek.message m d r.buffer.len = some x) (hfit : r.buffer.len + x.room ≤ r.buffer.capacity) :
    ∃ r', m.to_wire r = (.ok r'.data.length, r') ∧ Wrote r r' g x.octets ∧ DictHas r' (g.ext r.buffer.len x.octets) x.names := by
  have hf := (tracks_header m.header).seq ((tracks_question hm.question).seq (tracks_body hm))
  rw [← Seek.seq_assoc] at hf
  obtain ⟨r', a1, a2, a3⟩ := hf.ok r g d h hd x hx hfit
  refine ⟨r', ?_, a2, a3⟩
  obtain ⟨_, r1, b1, b2⟩ := St.bind_ok_inv a1
  obtain ⟨_, r2, c1, c2⟩ := St.bind_ok_inv b2
  rw [Response.to_wire_eq m _ _ _ _ b1 c1 c2]
  have : r'.len = r'.data.length := (OutBuf.contents_length a2.inv.buf).symm
  rw [this]

/-- header or question refused, or no room for them -/
theorem message_err {m : Response} (hm : m.Typed) {r : Render} {g : Mem} {d : Dict} (h : RInv r g) (hd : DictHas r g d)
    (hno : ∀ x, Seek.head m d r.buffer.len = some x → ¬ r.buffer.len + x.room ≤ r.buffer.capacity) : (m.to_wire r).1 = .err := by
  have := (tracks_head hm).err r g d h hd hno
  have hbi : ∀ r, m.to_wire r = ((m.header.to_wire >>= fun _ => m.question.to_wire) >>= fun _ => (do
      let r ← St.get
      m.sectionsLoop r.len [m.answer, m.authority, m.additional])) r := fun r => (St.bind_assoc' _ _ _ r).symm
  rw [hbi]
  generalize (m.header.to_wire >>= fun _ => m.question.to_wire) = w at this ⊢
  rcases hw : w r with ⟨x | _ | _, r1⟩ <;> rw [hw] at this
  · cases this
  · rw [St.bind_err hw]
  · cases this

/-- header and question written, the records refused or without room for all of them: the message is cut off, or, if nothing at all came out behind the
question, the program panics -/
theorem message_cut {m : Response} (hm : m.Typed) {r : Render} {g : Mem} {d : Dict} (h : RInv r g) (hd : DictHas r g d) {x : Written}
    (hx : Seek.head m d r.buffer.len = some x) (hfit : r.buffer.len + x.room ≤ r.buffer.capacity)
    (hno : ∀ y, Seek.body m x.names (r.buffer.len + x.octets.length) = some y → ¬ r.buffer.len + x.octets.length + y.room ≤ r.buffer.capacity) :
    ∃ s rest, m.records = s :: rest ∧
      ((∃ y, seekLabels x.names (r.buffer.len + x.octets.length) s.name.labelList = some y ∧
          r.buffer.len + x.octets.length + pieceOf s.name.labelList y.1 ≤ r.buffer.capacity) →
        ∃ r', m.to_wire r = (.ok (r.data.length + x.octets.length), r') ∧ r'.data = stamped m.header (r.data ++ x.octets)) ∧
      ((∀ y, seekLabels x.names (r.buffer.len + x.octets.length) s.name.labelList = some y →
          r.buffer.capacity < r.buffer.len + x.octets.length + pieceOf s.name.labelList y.1) → (m.to_wire r).1 = .panic) := by
  obtain ⟨r2, a1, a2, a3⟩ := (tracks_head hm).ok r g d h hd x hx hfit
  have hl0 : r.data.length = r.buffer.len := OutBuf.contents_length h.buf
  have hl2 : r2.buffer.len = r.buffer.len + x.octets.length := a2.len
  have hc2 : r2.buffer.capacity = r.buffer.capacity := a2.cap
  have hrun : m.to_wire r = m.sectionsLoop (r.data ++ x.octets).length [m.answer, m.authority, m.additional] r2 := by
    obtain ⟨_, r1, b1, b2⟩ := St.bind_ok_inv a1
    unfold Response.to_wire
    rw [St.bind_ok b1, St.bind_ok b2, St.get_bind]
    show m.sectionsLoop r2.buffer.len _ r2 = _
    rw [hl2, List.length_append, hl0]
  have herr := (tracks_body hm).err r2 _ x.names a2.inv a3 (by rw [hl2, hc2]; exact hno)
  rcases startsWith_body hm with ⟨k1, k2⟩ | ⟨s, rest, k1, k2, k3⟩
  · rw [k2] at herr; cases herr
  refine ⟨s, rest, k1, ?_⟩
  rcases total_body hm r2 _ a2.inv with ⟨r3, out, f1, _⟩ | ⟨r3, f1, f2⟩
  · rw [f1] at herr; cases herr
  obtain ⟨dx, hdx⟩ := f2.data
  obtain ⟨g', _, hi3⟩ := f2.inv
  have hhead : 12 ≤ (r.data ++ x.octets).length := by
    obtain ⟨y, z, c1, c2, c3⟩ := Seek.seq_some.mp hx
    have : y.octets.length = 12 := by
      unfold Seek.header Seek.octets at c1
      simp only [Option.some.injEq] at c1
      rw [← c1]
      rfl
    rw [c3]
    simp only [List.length_append]
    omega
  have hsp := truncate_any m hi3.buf (r.data ++ x.octets) dx hhead (by rw [hdx, a2.data])
  have hkey : dx = [] ↔ ∀ y, seekLabels x.names (r.buffer.len + x.octets.length) s.name.labelList = some y →
      r.buffer.capacity < r.buffer.len + x.octets.length + pieceOf s.name.labelList y.1 := by
    obtain ⟨ls, hv, hn⟩ := k2
    have hll : s.name.labelList = ls := by rw [hn, labels_ofLabels hv]
    rw [hll]
    rw [hn] at k3
    have hsk := write_name_seek hv a2.inv a3
    rw [hl2, hc2] at hsk
    rcases hw : (Render.write_name (ofLabels ls) true r2).1 with _ | _ | _
    · have := body_data ⟨ls, hv, rfl⟩ k3 a2.inv hw f1
      constructor
      · intro hd0; exact absurd (by rw [hdx, hd0, List.append_nil]) this
      · intro hall
        exfalso
        have : (Render.write_name (ofLabels ls) true r2).1 = .err := hsk.2 fun y hy hfit => by
          have h1 := hall y hy
          have h2 : pieceOf ls y.1 ≤ y.1.length := by unfold pieceOf; split <;> omega
          omega
        rw [hw] at this; cases this
    · have hleft := write_name_left hv a2.inv a3 hw
      rw [hl2, hc2] at hleft
      rw [← hleft]
      obtain ⟨rest', _, k5⟩ := k3
      have f1' := f1
      rw [k5, St.bind_err (s' := (Render.write_name (ofLabels ls) true r2).2) (by rw [← hw])] at f1'
      simp only [Prod.mk.injEq, true_and] at f1'
      rw [f1', hdx]; simp
    · exfalso
      rcases Decidable.em (∃ y, seekLabels x.names (r.buffer.len + x.octets.length) ls = some y ∧ r.buffer.len + x.octets.length + y.1.length ≤ r.buffer.capacity) with ⟨y, b1, b2⟩ | hx
      · obtain ⟨r', b3, _⟩ := hsk.1 y b1 b2
        rw [b3] at hw; cases hw
      · have := hsk.2 fun y b1 b2 => hx ⟨y, b1, b2⟩
        rw [hw] at this; cases this
  rw [hrun, sectionsLoop_eq, f1]
  simp only
  constructor
  · rintro ⟨y, b1, b2⟩
    obtain ⟨r4, t1, t2⟩ := hsp.1 fun hd0 => by have := hkey.mp hd0 y b1; omega
    exact ⟨r4, (St.bind_ok t1).trans (by rw [List.length_append]; rfl), t2⟩
  · intro hall
    obtain ⟨r4, t1⟩ := hsp.2 (hkey.mpr hall)
    have : (do m.truncate (r.data ++ x.octets).length; pure (r.data ++ x.octets).length : St Render Nat) r3 = (.panic, r4) := St.bind_panic t1
    rw [this]

end R53
