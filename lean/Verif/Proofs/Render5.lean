import Verif.Proofs.Render4
import Verif.Proofs.RRset
import Verif.Proofs.Message2
/-!
# Writers that succeed when there is room
-/
namespace R53
namespace Render
open Name (ofLabels)

theorem emitted_le {g : Mem} {ls : List Label} {compress : Bool} {lu : Nat} {off : UInt16} (h : ScanOK g ls compress lu off) :
    (emitted ls lu off).length ≤ (nameWire ls).length := by
  rcases h with ⟨h1, _⟩ | ⟨_, h2, h3, _⟩
  · simp only [emitted, if_pos h1]; omega
  · simp only [emitted, if_neg h2]
    have htd := congrArg List.length (wire_take_drop ls lu)
    rw [List.length_append, List.drop_eq_getElem_cons h3, wire_length_cons] at htd
    simp only [List.length_append, List.length_cons, List.length_nil, nameWire]
    omega

theorem findItems_mem (ob : OutBuf) (hash : UInt32) (items : List OffSetItem) (nb : InBuf) {off : UInt16} {nb' : InBuf}
    (h : findItems ob hash items nb = (.ok off, nb')) : off = NO_OFFSET ∨ ∃ it ∈ items, it.pos = off := by
  induction items generalizing nb with
  | nil =>
    left
    simp only [findItems, pure, Prod.mk.injEq, Res.ok.injEq] at h
    exact h.1.symm
  | cons it items ih =>
    simp only [findItems] at h
    obtain ⟨m, nb1, h1, h2⟩ := St.bind_ok_inv h
    cases m with
    | true =>
      right
      rw [if_pos rfl] at h2
      simp only [pure, Prod.mk.injEq, Res.ok.injEq] at h2
      exact ⟨it, by simp, h2.1⟩
    | false =>
      simp only [Bool.false_eq_true, if_false] at h2
      rcases ih nb1 h2 with h3 | ⟨x, hx, h3⟩
      · exact Or.inl h3
      · exact Or.inr ⟨x, by simp [hx], h3⟩

theorem find_offset_mem {r : Render} {g : Mem} (h : RInv r g) (hash : UInt32) (d : List UInt8) {off : UInt16} (hf : find_offset r d hash = .ok off) :
    off = NO_OFFSET ∨ ∃ it ∈ bucketItems r hash, it.pos = off := by
  rw [find_offset_eq h] at hf
  exact findItems_mem _ _ _ _ (nb' := (findItems r.buffer hash (bucketItems r hash) (InBuf.new d)).2) (by rw [← hf])

/-- a scan that succeeds records the hashes, and its offset is that of an item -/
theorem scanLoop_mem {ls : List Label} (hv : ValidName ls) (compress : Bool) (g : Mem) (k lu level : Nat) (r : Render)
    (h : RInv r g) (hk : k + lu = ls.length + 1) (hk0 : 0 < k) (hlev : level = lu - 1) (hh : HashOK ls lu r.label_hashes)
    {lu' : Nat} {off : UInt16} {r' : Render} (he : scanLoop (ofLabels ls) compress k lu level r = (.ok (lu', off), r')) :
    HashOK ls lu' r'.label_hashes ∧ (off = NO_OFFSET ∨ ∃ hash, ∃ it ∈ bucketItems r hash, it.pos = off) := by
  induction k generalizing lu level r with
  | zero => omega
  | succ k ih =>
    have hcount := hv.count
    simp only [scanLoop] at he
    have e1 : (if lu > 0 then cadd8 level 1 else .ok level) = .ok lu := by
      by_cases h0 : lu > 0
      · rw [if_pos h0, cadd8_ok (by omega)]; congr 1; omega
      · rw [if_neg h0]; congr 1; omega
    rw [St.bind_ok (s' := r) (a := lu) (by rw [e1]; rfl),
      St.bind_ok (s' := r) (a := lu + 1) (by rw [cadd8_ok (by omega)]; rfl)] at he
    rw [show (ofLabels ls).label_count % 256 = ls.length + 1 by rw [Name.ofLabels_count]; omega] at he
    by_cases hroot : lu + 1 = ls.length + 1
    · rw [if_pos hroot] at he
      simp only [pure, Prod.mk.injEq, Res.ok.injEq] at he
      obtain ⟨⟨rfl, rfl⟩, rfl⟩ := he
      exact ⟨fun i hi hi' => hh i (by omega) hi', Or.inl rfl⟩
    · rw [if_neg hroot] at he
      have hlu : lu < ls.length := by omega
      rw [St.bind_ok (s' := r) (a := nameWire (ls.drop lu)) (by rw [refData_ofLabels hlu]; rfl)] at he
      rw [St.get_bind] at he
      rw [St.bind_ok (s' := r) (a := r.label_hashes[lu]'(by rw [h.hlen]; omega)) (by rw [idx_of_lt (by rw [h.hlen]; omega)]; rfl)] at he
      have hh1 : HashOK ls (lu + 1) (r.label_hashes.set lu (hashBytes (nameWire (ls.drop lu)))) := by
        intro i hi hi'
        by_cases he : i = lu
        · subst he
          rw [List.getElem?_set_self (by rw [h.hlen]; omega)]
        · rw [List.getElem?_set_ne (by omega)]; exact hh i (by omega) hi'
      generalize hr1 : ({ r with label_hashes := r.label_hashes.set lu (hashBytes (nameWire (ls.drop lu))) } : Render) = r1 at he
      have h1 : RInv r1 g := by rw [← hr1]; exact RInv.setHashes h (by simp [h.hlen])
      have hh2 : HashOK ls (lu + 1) r1.label_hashes := by rw [← hr1]; exact hh1
      have hbi : ∀ x, bucketItems r1 x = bucketItems r x := by intro x; rw [← hr1]; rfl
      rw [St.put_bind] at he
      have hrec := fun he => ih (lu + 1) lu r1 h1 (by omega) (by omega) (by omega) hh2 he
      simp only [hbi] at hrec
      cases compress with
      | false =>
        simp only [Bool.false_eq_true, if_false] at he
        exact hrec he
      | true =>
        simp only [if_true] at he
        rw [St.get_bind] at he
        cases hf : find_offset r1 (nameWire (ls.drop lu)) (hashBytes (nameWire (ls.drop lu))) with
        | panic => rw [St.bind_panic (s' := r1) (by rw [hf]; rfl)] at he; simp at he
        | err => rw [St.bind_err (s' := r1) (by rw [hf]; rfl)] at he; simp at he
        | ok off1 =>
          rw [St.bind_ok (s' := r1) (a := off1) (by rw [hf]; rfl)] at he
          by_cases hoff : off1 = NO_OFFSET
          · rw [if_neg (by simpa using hoff)] at he
            exact hrec he
          · rw [if_pos hoff] at he
            simp only [pure, Prod.mk.injEq, Res.ok.injEq] at he
            obtain ⟨⟨rfl, rfl⟩, rfl⟩ := he
            refine ⟨fun i hi hi' => hh2 i (by omega) hi', Or.inr ⟨hashBytes (nameWire (ls.drop lu)), ?_⟩⟩
            have := (find_offset_mem h1 _ _ hf).resolve_left hoff
            rw [hbi] at this
            exact this

/-- without clashes `write_name` fails only for lack of room -/
theorem write_name_exact {S : List Label → Prop} (hS : NoClash S) {ls : List Label} (hv : ValidName ls) (hls : ∀ i, i < ls.length → S (ls.drop i))
    (compress : Bool) {r : Render} {g : Mem} (h : RInv r g) (ht : Tagged S r g) :
    ∃ lu off, ScanOK g ls compress lu off ∧
      (compress = true → ∀ i, i < lu → i < ls.length →
        ¬ ∃ it ∈ bucketItems r (hashBytes (nameWire (ls.drop i))), it.hash = hashBytes (nameWire (ls.drop i)) ∧
          it.len = UInt8.ofNat (nameWire (ls.drop i)).length) ∧
      (lu < ls.length → (∃ hash, ∃ it ∈ bucketItems r hash, it.pos = off) ∧ ∀ S0, Tagged S0 r g → S0 (ls.drop lu)) ∧
      (r.buffer.len + (emitted ls lu off).length ≤ r.buffer.capacity →
        ∃ r', write_name (ofLabels ls) compress r = (.ok (), r') ∧ Wrote r r' g (emitted ls lu off) ∧
          Tagged S r' (g.ext r.buffer.len (emitted ls lu off)) ∧
          ∃ r1, RInv r1 (g.ext r.buffer.len (emitted ls lu off)) ∧ r1.table = r.table ∧ r1.item_counts = r.item_counts ∧ HashOK ls lu r1.label_hashes ∧
            registerLoop lu 0 r.buffer.len (nameWire ls).length r1 = (.ok (), r') ∧
            ∀ j, j < lu → ∃ e, DecodesM (g.ext r.buffer.len (emitted ls lu off)) r.buffer.len (r.buffer.len + (wire (ls.take j)).length) (ls.drop j) e ∧
              (j < ls.length → g.ext r.buffer.len (emitted ls lu off) (r.buffer.len + (wire (ls.take j)).length) = some (UInt8.ofNat (ls[j]?.getD []).length)) ∧
              (j = ls.length → g.ext r.buffer.len (emitted ls lu off) (r.buffer.len + (wire (ls.take j)).length) = some 0)) ∧
      (¬ r.buffer.len + (emitted ls lu off).length ≤ r.buffer.capacity → (write_name (ofLabels ls) compress r).1 = .err ∧
        (write_name (ofLabels ls) compress r).2.buffer = r.buffer.append (leftover ls lu off (r.buffer.capacity - r.buffer.len))) := by
  unfold write_name
  obtain ⟨hs', h1, h2, h3⟩ := scanLoop_spec hv compress g (ofLabels ls).label_count 0 0 r h (by rw [Name.ofLabels_count])
    (by rw [Name.ofLabels_count]; omega) rfl
  obtain ⟨lu, off, hs, k1, k2, k3, k4⟩ := scanLoop_exact hS hv hls compress g (ofLabels ls).label_count 0 0 r h ht (by rw [Name.ofLabels_count])
    (by rw [Name.ofLabels_count]; omega) rfl (fun i hi => by omega)
  rw [k1] at h2 h3
  simp only at h2 h3
  have hhs : hs = hs' := by injection h2
  subst hhs
  have hsc : ScanOK g ls compress lu off := by
    rcases h3 with ⟨h3, _⟩ | ⟨a, b, h3, h4⟩
    · cases h3
    · injection h3 with h3; injection h3 with e1 e2; subst e1; subst e2; exact h4
  have hinv1 : RInv { r with label_hashes := hs } g := RInv.setHashes h h1
  have ht1 : Tagged S { r with label_hashes := hs } g := ht.same rfl rfl
  have hmem := (scanLoop_mem hv compress g (ofLabels ls).label_count 0 0 r h (by rw [Name.ofLabels_count])
    (by rw [Name.ofLabels_count]; omega) rfl (fun i hi => by omega) k1).2
  have hfound : lu < ls.length → (∃ hash, ∃ it ∈ bucketItems r hash, it.pos = off) ∧ ∀ S0, Tagged S0 r g → S0 (ls.drop lu) := by
    intro hlt
    rcases hsc with ⟨_, hx⟩ | ⟨_, hno, _, _, e, hdx⟩
    · omega
    · refine ⟨hmem.resolve_left hno, fun S0 ht0 => ?_⟩
      obtain ⟨hash, it, hit, hp⟩ := hmem.resolve_left hno
      obtain ⟨y, e', y0, y1, y2, _⟩ := bucketItems_tag h ht0 hash it hit
      rw [hp] at y2
      have := (y2.decodes h.mem).det (hdx.decodes h.mem)
      rw [← this.1]; exact y0
  refine ⟨lu, off, hsc, fun hc i hi hi' => k4 hc i (by omega) hi hi', hfound, ?_⟩
  rw [St.bind_ok k1]
  simp only
  rw [St.get_bind]
  have hem := emitName_exact compress hsc { r with label_hashes := hs } h.buf
  simp only at hem
  refine ⟨fun hfit => ?_, fun hfit => ?_⟩
  · rw [St.bind_ok (hem.1 hfit)]
    obtain ⟨hi2, hle, hcont⟩ := RInv.append hinv1 hfit
    simp only at hi2 hle hcont
    have hdec := fun j hj => emitted_decodes hv hsc hinv1 j hj
    simp only at hdec
    have hlu : lu ≤ ls.length + 1 := by rcases hsc with ⟨_, h⟩ | ⟨_, _, h, _⟩ <;> omega
    have hik : ∀ j, 0 ≤ j → j < 0 + lu → ∃ e, DecodesM (g.ext r.buffer.len (emitted ls lu off)) r.buffer.len (r.buffer.len + (wire (ls.take j)).length) (ls.drop j) e ∧
        (j < ls.length → g.ext r.buffer.len (emitted ls lu off) (r.buffer.len + (wire (ls.take j)).length) = some (UInt8.ofNat (ls[j]?.getD []).length)) ∧
        (j = ls.length → g.ext r.buffer.len (emitted ls lu off) (r.buffer.len + (wire (ls.take j)).length) = some 0) := fun j _ hj => by
      have := hdec j (Or.inl (by omega))
      exact ⟨_, this.1, this.2.1 (by omega), this.2.2 (by omega)⟩
    obtain ⟨r2, hr2, hr2i, hr2b⟩ := registerLoop_spec (e := 0) hv (start := r.buffer.len) lu 0 _ hi2 (by omega) hik
    have ht2 := registerLoop_tag hv hls (start := r.buffer.len) lu 0 _ hi2 ((ht1.le hle).same (r' := { r with label_hashes := hs, buffer := r.buffer.append (emitted ls lu off) }) rfl rfl)
      (by simpa using k2) (by omega) hik
    have hz : (wire (ls.take 0)).length = 0 := by simp
    rw [hz, Nat.add_zero, Nat.sub_zero] at hr2 ht2
    rw [hr2] at ht2
    refine ⟨r2, ?_, ⟨hfit, hr2b, hr2i⟩, ht2, _, hi2, rfl, rfl, k2, hr2, fun j hj => hik j (by omega) (by omega)⟩
    rw [← hr2]
    congr 1
    rw [Name.len, Name.ofLabels_raw, nameWire_eq]
  · have hd := hem.2 hfit
    rw [St.bind_err hd]
    exact ⟨rfl, rfl⟩

end Render

/-! ## writers -/

/-- `w` needs at most `n` octets of room, and keeps the table in order -/
def Ready (S : List Label → Prop) (w : St Render Unit) (n : Nat) : Prop :=
  ∀ r g, RInv r g → Tagged S r g → r.buffer.len + n ≤ r.buffer.capacity →
    ∃ r' out, w r = (.ok (), r') ∧ Wrote r r' g out ∧ Tagged S r' (g.ext r.buffer.len out) ∧ out.length ≤ n

namespace Ready
variable {S : List Label → Prop}

theorem nil : Ready S (Pure.pure ()) 0 := fun r g hr ht _ => ⟨r, [], rfl, Wrote.nil hr, by rw [Mem.ext_nil]; exact ht, by simp⟩

theorem seq {w1 w2 : St Render Unit} {n m : Nat} (h1 : Ready S w1 n) (h2 : Ready S w2 m) : Ready S (w1 >>= fun _ => w2) (n + m) := by
  intro r g hr ht hfit
  obtain ⟨r1, a, e1, k1, t1, l1⟩ := h1 r g hr ht (by omega)
  obtain ⟨r2, b, e2, k2, t2, l2⟩ := h2 r1 _ k1.inv t1 (by rw [k1.len, k1.cap]; omega)
  refine ⟨r2, a ++ b, by rw [St.bind_ok e1]; exact e2, k1.trans k2, ?_, by simp; omega⟩
  rw [k1.len, Mem.ext_ext] at t2; exact t2

theorem octets {w : St Render Unit} {d : List UInt8}
    (hw : ∀ r, w r = if r.buffer.len + d.length ≤ r.buffer.capacity then (.ok (), { r with buffer := r.buffer.append d }) else (.err, r)) :
    Ready S w d.length := by
  intro r g hr ht hfit
  obtain ⟨h1, h2, h3⟩ := Render.RInv.append hr hfit
  refine ⟨_, d, by rw [hw, if_pos hfit], ⟨hfit, rfl, h1⟩, (ht.le h2).same rfl rfl, Nat.le_refl _⟩

theorem u8 (v : UInt8) : Ready S (Render.write_u8 v) 1 := octets (d := [v]) (Render.write_u8_r v)
theorem u16 (v : UInt16) : Ready S (Render.write_u16 v) 2 := octets (d := be16 v) (Render.write_u16_r v)
theorem u32 (v : UInt32) : Ready S (Render.write_u32 v) 4 := octets (d := be32 v) (Render.write_u32_r v)
theorem bytes (v : List UInt8) : Ready S (Render.write_bytes v) v.length := octets (d := v) (Render.write_bytes_r v)

theorem mono {w : St Render Unit} {n m : Nat} (h : Ready S w n) (hm : n ≤ m) : Ready S w m := by
  intro r g hr ht hfit
  obtain ⟨r1, a, e1, k1, t1, l1⟩ := h r g hr ht (by omega)
  exact ⟨r1, a, e1, k1, t1, by omega⟩

end Ready

/-- the name and its parents are in `S` (the root need not be) -/
def InS (S : List Label → Prop) (n : Name) : Prop := ∃ ls, ValidName ls ∧ n = Name.ofLabels ls ∧ ∀ i, i < ls.length → S (ls.drop i)

theorem ready_name {S : List Label → Prop} (hS : NoClash S) {n : Name} (h : InS S n) (c : Bool) : Ready S (Render.write_name n c) n.raw.length := by
  obtain ⟨ls, hv, rfl, hls⟩ := h
  intro r g hr ht hfit
  rw [show (Name.ofLabels ls).raw = nameWire ls by rw [nameWire_eq]; rfl] at hfit ⊢
  obtain ⟨lu, off, h1, h2, _, h3, h4⟩ := Render.write_name_exact hS hv hls c hr ht
  have := Render.emitted_le h1
  obtain ⟨r', e1, e2, e3, _⟩ := h3 (by omega)
  exact ⟨r', _, e1, e2, e3, this⟩

namespace Field

theorem ready_octets {S : List Label → Prop} (o : List UInt8) : Ready S (octets_to_wire o) o.length := by
  induction o with
  | nil => exact Ready.nil
  | cons x xs ih =>
    rw [List.length_cons, Nat.add_comm]
    exact Ready.seq (Ready.u8 x) ih

theorem ready_bytesField {S : List Label → Prop} (d : List UInt8) : Ready S (bytes_to_wire d) (d.length + 1) := by
  rw [Nat.add_comm]; exact Ready.seq (Ready.u8 _) (Ready.bytes d)

theorem ready_text {S : List Label → Prop} (ds : List (List UInt8)) : Ready S (text_to_wire ds) (ds.map fun d => d.length + 1).sum := by
  induction ds with
  | nil => exact Ready.nil
  | cons d ds ih => rw [List.map_cons, List.sum_cons]; exact Ready.seq (ready_bytesField d) ih

end Field

/-- the names of a field are in `S` -/
def FieldVal.InS (S : List Label → Prop) : FieldVal → Prop
  | .name n => R53.InS S n
  | _ => True

theorem ready_field {S : List Label → Prop} (hS : NoClash S) (c : Codec) (v : FieldVal) (hv : FieldTyped c v) (hn : v.InS S) :
    Ready S (Field.to_wire c v) (v.size c) := by
  cases c <;> cases v <;> simp only [FieldTyped] at hv <;> unfold Field.to_wire FieldVal.size
  case name.name n => exact ready_name hS hn true
  case ipv4.ip o => exact Field.ready_octets o
  case ipv6.ip o => exact Field.ready_octets o
  case u8.u8 v => exact Ready.u8 v
  case u16.u16 v => exact Ready.u16 v
  case u32.u32 v => exact Ready.u32 v
  case rrtype.rrtype t => exact Ready.u16 _
  case text.text ds => exact Field.ready_text ds
  case byte_binary.bytes d => exact Field.ready_bytesField d
  case binary.bytes d => exact Ready.bytes d

theorem ready_fields {S : List Label → Prop} (hS : NoClash S) (cs : List (Codec × Disp)) (vs : List FieldVal) (hv : FieldsTyped cs vs)
    (hn : ∀ v ∈ vs, v.InS S) : Ready S (Field.allTo cs vs) (fieldsSize cs vs) := by
  induction cs generalizing vs with
  | nil =>
    cases vs with
    | nil => exact Ready.nil
    | cons v vs => simp [FieldsTyped] at hv
  | cons c cs ih =>
    cases vs with
    | nil => simp [FieldsTyped] at hv
    | cons v vs => exact Ready.seq (ready_field hS c.1 v hv.1 (hn v (by simp))) (ih vs hv.2 fun x hx => hn x (by simp [hx]))

theorem ready_rdata {S : List Label → Prop} (hS : NoClash S) {rd : RData} (h : rd.Typed) (hn : ∀ v ∈ rd.fields, v.InS S) :
    Ready S rd.to_wire rd.size := by
  obtain ⟨cs, hs, hf⟩ := h
  unfold RData.to_wire RData.size
  rw [hs]
  exact ready_fields hS cs rd.fields hf hn

/-- the length and the data; `skip` wants one octet more than it takes, which the data provides -/
theorem ready_rdlen {S : List Label → Prop} {rd : RData} {n : Nat} (h : Ready S rd.to_wire n) (hn : 1 ≤ n) : Ready S (RRset.rdata_to_wire rd) (2 + n) := by
  intro r g hr ht hfit
  unfold RRset.rdata_to_wire
  rw [St.get_bind]
  simp only [Render.skip]
  have hs : r.buffer.len + 2 < r.buffer.capacity := by omega
  have hsk : Render.onBuffer (OutBuf.skip 2) r = (.ok (), { r with buffer := { r.buffer with len := r.buffer.len + 2 } }) := by
    rw [Render.onBuffer_apply]; unfold OutBuf.skip; rw [if_pos hs]
  rw [St.bind_ok hsk]
  obtain ⟨st, k1, k2, k3⟩ := OutBuf.skipped (b := r.buffer) (n := 2) (by omega)
  have hl : r.buffer.contents.length = r.buffer.len := OutBuf.contents_length hr.buf
  have hr1 : RInv { r with buffer := { r.buffer with len := r.buffer.len + 2 } } g := by
    rw [k3]
    have hi : (r.buffer.append st).Inv := by
      show (r.buffer.append st).len ≤ (r.buffer.append st).capacity
      rw [OutBuf.append_capacity k2]; exact k2
    refine RInv.setBuffer hr hi ?_
    rw [OutBuf.append_contents k2]
    exact Mem.le_append hr.mem _
  obtain ⟨r2, body, e1, e2, e3, e4⟩ := h _ g hr1 (ht.same rfl rfl) (show r.buffer.len + 2 + n ≤ r.buffer.capacity by omega)
  rw [St.bind_ok e1, St.get_bind]
  have hlen : r2.buffer.len = r.buffer.len + 2 + body.length := e2.len
  have hfit : r.buffer.len + 2 + body.length ≤ r.buffer.capacity := e2.fit
  rw [St.lift_ok_bind (csub_ok (by omega)), St.lift_ok_bind (csub_ok (by omega))]
  rw [show r2.buffer.len - r.buffer.len - 2 = body.length by omega]
  rw [Render.write_u16_at, Render.write_u16_at_r _ _ _ e2.inv.buf, if_pos (by rw [be16_length]; omega)]
  have hbuf : (⟨overwrite r2.buffer.data r.buffer.len (be16 (UInt16.ofNat body.length)), r2.buffer.len⟩ : OutBuf) =
      r.buffer.append (be16 (UInt16.ofNat body.length) ++ body) := by
    rw [OutBuf.append, e2.buf]
    simp only [OutBuf.append, OutBuf.mk.injEq]
    refine ⟨?_, by simp [be16_length]; omega⟩
    rw [← overwrite_before _ _ _ _ (by rw [be16_length]; exact hfit), be16_length]
  have hfit2 : r.buffer.len + (be16 (UInt16.ofNat body.length) ++ body).length ≤ r.buffer.capacity := by
    rw [List.length_append, be16_length]; omega
  have hgle : (g.ext (r.buffer.len + 2) body).le (g.ext r.buffer.len (be16 (UInt16.ofNat body.length) ++ body)) := by
    intro i x hx
    rw [← Mem.ext_ext, be16_length]
    unfold Mem.ext at hx ⊢
    split at hx
    · rename_i hc; rw [if_pos hc]; exact hx
    · rename_i hc
      rw [if_neg hc]
      have : ¬ r.buffer.len ≤ i := by
        intro hi
        rw [Mem.none_of_le hr.mem (by rw [hl]; exact hi)] at hx
        simp at hx
      rw [if_neg (by omega)]; exact hx
  have hmem : (g.ext r.buffer.len (be16 (UInt16.ofNat body.length) ++ body)).le
      (memOf (r.buffer.append (be16 (UInt16.ofNat body.length) ++ body)).contents) := by
    rw [OutBuf.append_contents hfit2, ← hl]
    exact Mem.ext_le hr.mem _
  refine ⟨_, be16 (UInt16.ofNat body.length) ++ body, rfl, ⟨hfit2, hbuf, ?_⟩, (e3.le hgle).same rfl rfl, by rw [List.length_append, be16_length]; omega⟩
  rw [hbuf]
  refine RInv.le (RInv.setBuffer e2.inv ?_ (Mem.le_trans hgle hmem)) hgle hmem
  show (r.buffer.append _).len ≤ (r.buffer.append _).capacity
  rw [OutBuf.append_capacity hfit2]; exact hfit2

end R53
