import Verif.Proofs.Encode
import Verif.Proofs.Layout
/-!
# The renderer follows the reference encoder: records and messages
-/
namespace R53
open Name (ofLabels)

/-- `w` writes what `e` says -/
structure Follows (S : List Label → Prop) (w : St Render Unit) (e : Enc) : Prop where
  grows : ∀ d p, d <+: (e d p).2
  keeps : ∀ d p, (∀ x ∈ d, S x.1) → ∀ x ∈ (e d p).2, S x.1
  ok : ∀ r g d, RInv r g → DictOK r g d → (∀ x ∈ d, S x.1) →
    r.buffer.len + (e d r.buffer.len).1.length ≤ r.buffer.capacity →
    ∃ r', w r = (.ok (), r') ∧ Wrote r r' g (e d r.buffer.len).1 ∧ DictOK r' (g.ext r.buffer.len (e d r.buffer.len).1) (e d r.buffer.len).2
  err : ∀ r g d, RInv r g → DictOK r g d → (∀ x ∈ d, S x.1) →
    ¬ r.buffer.len + (e d r.buffer.len).1.length ≤ r.buffer.capacity → (w r).1 = .err

namespace Enc
theorem seq_assoc (a b c : Enc) : seq (seq a b) c = seq a (seq b c) := by
  funext d p
  simp [seq, Nat.add_assoc]
theorem seq_octets (a b : List UInt8) : seq (octets a) (octets b) = octets (a ++ b) := rfl
theorem seq_nil (e : Enc) : seq e (octets []) = e := by funext d p; simp [seq, octets]
theorem nil_seq (e : Enc) : seq (octets []) e = e := by funext d p; simp [seq, octets]
theorem all_append (a b : List Enc) : all (a ++ b) = seq (all a) (all b) := by
  induction a with
  | nil => rw [List.nil_append, all, nil_seq]
  | cons x a ih => rw [List.cons_append, all, all, ih, seq_assoc]
end Enc

namespace Follows
variable {S : List Label → Prop}

theorem nil : Follows S (Pure.pure ()) (Enc.octets []) where
  grows d p := List.prefix_refl d
  keeps d p h := h
  ok r g d hr hd _ _ := ⟨r, rfl, Wrote.nil hr, by show DictOK r (g.ext _ []) d; rw [Mem.ext_nil]; exact hd⟩
  err r g d hr _ _ hno := absurd (by simpa [Enc.octets, OutBuf.Inv] using hr.buf) hno

theorem seq {w1 w2 : St Render Unit} {e1 e2 : Enc} (h1 : Follows S w1 e1) (h2 : Follows S w2 e2) : Follows S (w1 >>= fun _ => w2) (Enc.seq e1 e2) where
  grows d p := (h1.grows d p).trans (h2.grows _ _)
  keeps d p h := h2.keeps _ _ (h1.keeps d p h)
  ok r g d hr hd hS hfit := by
    simp only [Enc.seq, List.length_append] at hfit ⊢
    obtain ⟨r1, a1, a2, a3⟩ := h1.ok r g d hr hd hS (by omega)
    have hl := a2.len
    have hc := a2.cap
    rw [← hl] at hfit ⊢
    obtain ⟨r2, b1, b2, b3⟩ := h2.ok r1 _ _ a2.inv a3 (h1.keeps _ _ hS) (by rw [hc]; omega)
    refine ⟨r2, by rw [St.bind_ok a1]; exact b1, a2.trans b2, ?_⟩
    rw [← Mem.ext_ext, ← hl]; exact b3
  err r g d hr hd hS hfit := by
    simp only [Enc.seq, List.length_append] at hfit
    by_cases hf1 : r.buffer.len + (e1 d r.buffer.len).1.length ≤ r.buffer.capacity
    · obtain ⟨r1, a1, a2, a3⟩ := h1.ok r g d hr hd hS hf1
      have hl := a2.len
      have hc := a2.cap
      rw [← hl] at hfit
      rw [St.bind_ok a1]
      exact h2.err r1 _ _ a2.inv a3 (h1.keeps _ _ hS) (by rw [hc]; omega)
    · have := h1.err r g d hr hd hS hf1
      generalize hw : w1 r = x at this
      obtain ⟨y, s⟩ := x
      simp only at this
      subst this
      rw [St.bind_err hw]

theorem octets {w : St Render Unit} {o : List UInt8}
    (hw : ∀ r, w r = if r.buffer.len + o.length ≤ r.buffer.capacity then (.ok (), { r with buffer := r.buffer.append o }) else (.err, r)) :
    Follows S w (Enc.octets o) where
  grows d p := List.prefix_refl d
  keeps d p h := h
  ok r g d hr hd _ hfit := by
    simp only [Enc.octets] at hfit ⊢
    obtain ⟨h1, h2, h3⟩ := Render.RInv.append hr hfit
    exact ⟨_, by rw [hw, if_pos hfit], ⟨hfit, rfl, h1⟩, (hd.le h2).same rfl rfl⟩
  err r g d hr _ _ hno := by
    simp only [Enc.octets] at hno
    rw [hw, if_neg hno]

theorem u8 (v : UInt8) : Follows S (Render.write_u8 v) (Enc.octets [v]) := octets (Render.write_u8_r v)
theorem u16 (v : UInt16) : Follows S (Render.write_u16 v) (Enc.octets (be16 v)) := octets (Render.write_u16_r v)
theorem u32 (v : UInt32) : Follows S (Render.write_u32 v) (Enc.octets (be32 v)) := octets (Render.write_u32_r v)
theorem bytes (v : List UInt8) : Follows S (Render.write_bytes v) (Enc.octets v) := octets (Render.write_bytes_r v)

end Follows

theorem encLabels_grows (k : Memory) (d : Dict) (p : Nat) (ls : List Label) : d <+: (encLabels k d p ls).2 := by
  induction ls generalizing d p with
  | nil => exact List.prefix_refl d
  | cons l ls ih =>
    rw [encLabels]
    split
    · exact List.prefix_refl d
    · refine List.IsPrefix.trans ?_ (ih _ _)
      split
      · exact List.prefix_append _ _
      · exact List.prefix_refl d

theorem encLabels_keeps {S : List Label → Prop} (k : Memory) (d : Dict) (p : Nat) (ls : List Label) (hls : ∀ i, i < ls.length → S (ls.drop i)) (hd : ∀ x ∈ d, S x.1) :
    ∀ x ∈ (encLabels k d p ls).2, S x.1 := by
  induction ls generalizing d p with
  | nil => exact hd
  | cons l ls ih =>
    rw [encLabels]
    split
    · exact hd
    · refine ih _ _ (fun i hi => by have := hls (i + 1) (by simpa using hi); simpa using this) ?_
      split
      · intro x hx
        rcases List.mem_append.mp hx with hx | hx
        · exact hd x hx
        · rw [List.mem_singleton] at hx; subst hx
          simpa using hls 0 (by simp)
      · exact hd

theorem follows_name {S : List Label → Prop} (hS : NoClash S) {n : Name} (h : InS S n) : Follows S (Render.write_name n true) (Enc.name Memory.table n) := by
  obtain ⟨ls, hv, rfl, hls⟩ := h
  have hl := labels_ofLabels hv
  refine ⟨fun d p => ?_, fun d p hd => ?_, fun r g d hr hd hdS hfit => ?_, fun r g d hr hd hdS hfit => ?_⟩
  · unfold Enc.name; rw [hl]; exact encLabels_grows _ _ _ _
  · unfold Enc.name; rw [hl]; exact encLabels_keeps _ _ _ _ hls hd
  · unfold Enc.name at hfit ⊢
    rw [hl] at hfit ⊢
    obtain ⟨lu, off, _, _, _, _, h3, _⟩ := write_name_dict hS hv hls hr hd hdS
    exact h3 hfit
  · unfold Enc.name at hfit
    rw [hl] at hfit
    obtain ⟨lu, off, _, _, _, _, _, h3⟩ := write_name_dict hS hv hls hr hd hdS
    exact (h3 hfit).1

theorem follows_octets {S : List Label → Prop} (o : List UInt8) : Follows S (Field.octets_to_wire o) (Enc.octets o) := by
  induction o with
  | nil => exact Follows.nil
  | cons x xs ih =>
    have := Follows.seq (Follows.u8 x) ih
    rw [Enc.seq_octets] at this
    exact this

theorem follows_bytesField {S : List Label → Prop} (d : List UInt8) : Follows S (Field.bytes_to_wire d) (Enc.octets (withLen d)) := by
  have := Follows.seq (S := S) (Follows.u8 (UInt8.ofNat d.length)) (Follows.bytes d)
  rw [Enc.seq_octets] at this
  exact this

theorem follows_text {S : List Label → Prop} (ds : List (List UInt8)) : Follows S (Field.text_to_wire ds) (Enc.octets (ds.flatMap withLen)) := by
  induction ds with
  | nil => exact Follows.nil
  | cons d ds ih =>
    have := Follows.seq (follows_bytesField d) ih
    rw [Enc.seq_octets] at this
    exact this

/-- a field as its codec writes it -/
def encField (k : Memory) : Codec → FieldVal → Enc
  | _, .name n => Enc.name k n
  | _, .ip o => Enc.octets o
  | _, .u8 v => Enc.octets [v]
  | _, .u16 v => Enc.octets (be16 v)
  | _, .u32 v => Enc.octets (be32 v)
  | _, .rrtype t => Enc.octets (be16 t.as_u16)
  | _, .text ds => Enc.octets (ds.flatMap withLen)
  | .byte_binary, .bytes s => Enc.octets (withLen s)
  | _, .bytes s => Enc.octets s

theorem follows_field {S : List Label → Prop} (hS : NoClash S) (c : Codec) (v : FieldVal) (hv : FieldTyped c v) (hn : v.InS S) :
    Follows S (Field.to_wire c v) (encField Memory.table c v) := by
  cases c <;> cases v <;> simp only [FieldTyped] at hv <;> unfold Field.to_wire encField
  case name.name n => exact follows_name hS hn
  case ipv4.ip o => exact follows_octets o
  case ipv6.ip o => exact follows_octets o
  case u8.u8 v => exact Follows.u8 v
  case u16.u16 v => exact Follows.u16 v
  case u32.u32 v => exact Follows.u32 v
  case rrtype.rrtype t => exact Follows.u16 _
  case text.text ds => exact follows_text ds
  case byte_binary.bytes d => exact follows_bytesField d
  case binary.bytes d => exact Follows.bytes d

theorem follows_fields {S : List Label → Prop} (hS : NoClash S) (cs : List (Codec × Disp)) (vs : List FieldVal) (hv : FieldsTyped cs vs)
    (hn : ∀ v ∈ vs, v.InS S) : Follows S (Field.allTo cs vs) (Enc.all (List.zipWith (fun c v => encField Memory.table c.1 v) cs vs)) := by
  induction cs generalizing vs with
  | nil =>
    cases vs with
    | nil => exact Follows.nil
    | cons v vs => simp [FieldsTyped] at hv
  | cons c cs ih =>
    cases vs with
    | nil => simp [FieldsTyped] at hv
    | cons v vs => exact Follows.seq (follows_field hS c.1 v hv.1 (hn v (by simp))) (ih vs hv.2 fun x hx => hn x (by simp [hx]))

theorem Enc.all_strings (ss : List (List UInt8)) : Enc.all (ss.map fun s => Enc.octets (withLen s)) = Enc.octets (ss.flatMap withLen) := by
  induction ss with
  | nil => rfl
  | cons s ss ih => rw [List.map_cons, Enc.all, ih, Enc.seq_octets]; rfl

/-! ## the layout of the documents is that of the structs -/

theorem encData_schema {k : Memory} {rd : RData} {cs : List (Codec × Disp)} (hs : schema rd.kind = some cs) (ht : FieldsTyped cs rd.fields) :
    encData k rd = Enc.all (List.zipWith (fun c v => encField k c.1 v) cs rd.fields) := by
  obtain ⟨k, vs⟩ := rd
  unfold encData
  simp only at hs ht ⊢
  replace ht := ht.shape
  cases k <;> simp only [schema, Option.some.injEq, reduceCtorEq] at hs <;> subst hs <;>
    · simp only [FieldsShape, FieldShape] at ht
      repeat (obtain ⟨v, vs, rfl, ⟨x, rfl⟩, ht⟩ := ht)
      simp only [rfcData, layout, Enc.fields, List.zipWith_cons_cons, List.zipWith_nil_left, encField, Option.getD_some]
      try simp only [Enc.all_strings, Enc.all, Enc.seq_nil]

theorem follows_rdata {S : List Label → Prop} (hS : NoClash S) {rd : RData} (h : rd.Typed) (hn : ∀ v ∈ rd.fields, v.InS S) :
    Follows S rd.to_wire (encData Memory.table rd) := by
  obtain ⟨cs, hs, hf⟩ := h
  unfold RData.to_wire
  rw [hs, encData_schema hs hf]
  exact follows_fields hS cs rd.fields hf hn

/-- the length and the data -/
theorem follows_rdlen {S : List Label → Prop} {rd : RData} {e : Enc} (h : Follows S rd.to_wire e) (hne : ∀ d p, 1 ≤ (e d p).1.length) :
    Follows S (RRset.rdata_to_wire rd) (Enc.measured e) := by
  have hsk : ∀ r : Render, r.buffer.len + 2 < r.buffer.capacity → Render.onBuffer (OutBuf.skip 2) r = (.ok (), { r with buffer := { r.buffer with len := r.buffer.len + 2 } }) := by
    intro r hs
    rw [Render.onBuffer_apply]; unfold OutBuf.skip; rw [if_pos hs]
  have hinv : ∀ (r : Render) (g : Mem), RInv r g → r.buffer.len + 2 < r.buffer.capacity → RInv { r with buffer := { r.buffer with len := r.buffer.len + 2 } } g := by
    intro r g hr hs
    obtain ⟨st, k1, k2, k3⟩ := OutBuf.skipped (b := r.buffer) (n := 2) (by omega)
    rw [k3]
    have hi : (r.buffer.append st).Inv := by
      show (r.buffer.append st).len ≤ (r.buffer.append st).capacity
      rw [OutBuf.append_capacity k2]; exact k2
    refine RInv.setBuffer hr hi ?_
    rw [OutBuf.append_contents k2]
    exact Mem.le_append hr.mem _
  refine ⟨fun d p => h.grows _ _, fun d p => h.keeps _ _, fun r g d hr hd hdS hfit => ?_, fun r g d hr hd hdS hfit => ?_⟩
  · simp only [Enc.measured, List.length_append, be16_length] at hfit ⊢
    have hs : r.buffer.len + 2 < r.buffer.capacity := by have := hne d (r.buffer.len + 2); omega
    unfold RRset.rdata_to_wire
    rw [St.get_bind]
    simp only [Render.skip]
    rw [St.bind_ok (hsk r hs)]
    have hl : r.buffer.contents.length = r.buffer.len := OutBuf.contents_length hr.buf
    obtain ⟨r2, e1, e2, e3⟩ := h.ok { r with buffer := { r.buffer with len := r.buffer.len + 2 } } g d (hinv r g hr hs) (hd.same rfl rfl) hdS
      (show r.buffer.len + 2 + (e d (r.buffer.len + 2)).1.length ≤ r.buffer.capacity by omega)
    simp only at e1 e2 e3
    generalize hx : e d (r.buffer.len + 2) = x at *
    obtain ⟨body, d'⟩ := x
    simp only at e1 e2 e3 hfit ⊢
    rw [St.bind_ok e1, St.get_bind]
    have hlen : r2.buffer.len = r.buffer.len + 2 + body.length := e2.len
    have hfit : r.buffer.len + 2 + body.length ≤ r.buffer.capacity := e2.fit
    rw [St.lift_ok_bind (csub_ok (by omega)), St.lift_ok_bind (csub_ok (by omega))]
    rw [show r2.buffer.len - r.buffer.len - 2 = body.length by omega]
    rw [Render.write_u16_at, Render.write_u16_at_r _ _ _ e2.inv.buf, if_pos (by rw [be16_length]; omega)]
    have hbuf : (⟨overwrite r2.buffer.data r.buffer.len (be16 (UInt16.ofNat body.length)), r2.buffer.len⟩ : OutBuf) =
        r.buffer.append (be16 (UInt16.ofNat body.length) ++ body) := by
      rw [OutBuf.append, e2.buf]
      simp only [OutBuf.append, OutBuf.mk.injEq]
      refine ⟨?_, by simp [be16_length]; omega⟩
      rw [← overwrite_before _ _ _ _ (by rw [be16_length]; exact hfit), be16_length]
    have hfit2 : r.buffer.len + (be16 (UInt16.ofNat body.length) ++ body).length ≤ r.buffer.capacity := by
      rw [List.length_append, be16_length]; omega
    have hgle : (g.ext (r.buffer.len + 2) body).le (g.ext r.buffer.len (be16 (UInt16.ofNat body.length) ++ body)) := by
      intro i x hx
      rw [← Mem.ext_ext, be16_length]
      unfold Mem.ext at hx ⊢
      split at hx
      · rename_i hc; rw [if_pos hc]; exact hx
      · rename_i hc
        rw [if_neg hc]
        have : ¬ r.buffer.len ≤ i := by
          intro hi
          rw [Mem.none_of_le hr.mem (by rw [hl]; exact hi)] at hx
          simp at hx
        rw [if_neg (by omega)]; exact hx
    have hmem : (g.ext r.buffer.len (be16 (UInt16.ofNat body.length) ++ body)).le
        (memOf (r.buffer.append (be16 (UInt16.ofNat body.length) ++ body)).contents) := by
      rw [OutBuf.append_contents hfit2, ← hl]
      exact Mem.ext_le hr.mem _
    refine ⟨_, rfl, ⟨hfit2, hbuf, ?_⟩, (e3.le hgle).same rfl rfl⟩
    rw [hbuf]
    refine RInv.le (RInv.setBuffer e2.inv ?_ (Mem.le_trans hgle hmem)) hgle hmem
    show (r.buffer.append _).len ≤ (r.buffer.append _).capacity
    rw [OutBuf.append_capacity hfit2]; exact hfit2
  · simp only [Enc.measured, List.length_append, be16_length] at hfit
    unfold RRset.rdata_to_wire
    rw [St.get_bind]
    simp only [Render.skip]
    by_cases hs : r.buffer.len + 2 < r.buffer.capacity
    · rw [St.bind_ok (hsk r hs)]
      have := h.err { r with buffer := { r.buffer with len := r.buffer.len + 2 } } g d (hinv r g hr hs) (hd.same rfl rfl) hdS
        (show ¬ r.buffer.len + 2 + (e d (r.buffer.len + 2)).1.length ≤ r.buffer.capacity by omega)
      generalize hw : rd.to_wire { r with buffer := { r.buffer with len := r.buffer.len + 2 } } = x at this
      obtain ⟨y, s⟩ := x
      simp only at this
      subst this
      rw [St.bind_err hw]
    · have : Render.onBuffer (OutBuf.skip 2) r = (.err, r) := by
        rw [Render.onBuffer_apply]; unfold OutBuf.skip; rw [if_neg hs]
      rw [St.bind_err this]

/-! ## data is not empty -/

theorem encLabels_pos (k : Memory) (d : Dict) (p : Nat) (ls : List Label) : 1 ≤ (encLabels k d p ls).1.length := by
  cases ls with
  | nil => simp [encLabels]
  | cons l ls =>
    rw [encLabels]
    split <;> simp [pointerTo, labelWire]

theorem encField_pos (k : Memory) (c : Codec) (v : FieldVal) (ht : FieldTyped c v) (h : 1 ≤ v.size c) (d : Dict) (p : Nat) : 1 ≤ (encField k c v d p).1.length := by
  cases v with
  | name n => exact encLabels_pos _ _ _ _
  | ip o => cases c <;> simpa [encField, Enc.octets, FieldVal.size] using h
  | u8 v => cases c <;> simp [encField, Enc.octets]
  | u16 v => cases c <;> simp [encField, Enc.octets, be16]
  | u32 v => cases c <;> simp [encField, Enc.octets, be32]
  | rrtype t => cases c <;> simp [encField, Enc.octets, be16]
  | text ds =>
    cases ds with
    | nil => cases c <;> simp [FieldVal.size] at h
    | cons x ds => cases c <;> simp [encField, Enc.octets, withLen]
  | bytes s => cases c <;> simp only [FieldTyped] at ht <;> simp [encField, Enc.octets, withLen] <;> simpa [FieldVal.size] using h

theorem encFields_pos (k : Memory) (cs : List (Codec × Disp)) (vs : List FieldVal) (ht : FieldsTyped cs vs) (h : 1 ≤ fieldsSize cs vs) (d : Dict) (p : Nat) :
    1 ≤ (Enc.all (List.zipWith (fun c v => encField k c.1 v) cs vs) d p).1.length := by
  induction cs generalizing vs d p with
  | nil => simp [fieldsSize] at h
  | cons c cs ih =>
    cases vs with
    | nil => simp [fieldsSize] at h
    | cons v vs =>
      simp only [List.zipWith_cons_cons, Enc.all, Enc.seq, List.length_append]
      rw [fieldsSize] at h
      by_cases h1 : 1 ≤ v.size c.1
      · have := encField_pos k c.1 v ht.1 h1 d p; omega
      · have := ih vs ht.2 (by omega) (encField k c.1 v d p).2 (p + (encField k c.1 v d p).1.length); omega

theorem encData_pos (k : Memory) {rd : RData} (h : rd.Typed) (h1 : 1 ≤ rd.size) (d : Dict) (p : Nat) : 1 ≤ (encData k rd d p).1.length := by
  obtain ⟨cs, hs, ht⟩ := h
  unfold RData.size at h1
  rw [encData_schema hs ht]
  rw [hs] at h1
  exact encFields_pos k cs _ ht h1 d p

/-! ## records -/

section
variable {ns : List Name} (hc : ClashFree ns)
include hc

theorem follows_owner {s : RRset} (hn : s.name.WF) (hnm : s.name ∈ ns) {w : St Render Unit} {e : Enc} (h : Follows (TailSet ns) w e) :
    Follows (TailSet ns) (Render.write_name s.name true >>= fun _ => Render.write_u16 s.typ.as_u16 >>= fun _ =>
      Render.write_u16 s.class_.to_u16 >>= fun _ => Render.write_u32 s.ttl >>= fun _ => w) (Enc.seq (encOwner Memory.table s) e) := by
  have := (follows_name hc.noClash (inS_of_mem hn hnm)).seq ((Follows.u16 s.typ.as_u16).seq ((Follows.u16 s.class_.to_u16).seq ((Follows.u32 s.ttl).seq h)))
  unfold encOwner
  rw [← Enc.seq_octets, ← Enc.seq_octets, Enc.seq_assoc, Enc.seq_assoc, Enc.seq_assoc]
  exact this

theorem follows_rr {s : RRset} (hn : s.name.WF) (hnm : s.name ∈ ns) {rd : RData} (h : rd.Typed) (h1 : 1 ≤ rd.size)
    (hm : ∀ n ∈ rd.fields.flatMap FieldVal.names, n ∈ ns) :
    Follows (TailSet ns) (s.rr_to_wire rd) (Enc.seq (encOwner Memory.table s) (Enc.measured (encData Memory.table rd))) := by
  have hr : Follows (TailSet ns) rd.to_wire (encData Memory.table rd) := follows_rdata hc.noClash h (by
    obtain ⟨cs, _, hf⟩ := h; exact fieldsInS_of_mem hf hm)
  exact follows_owner hc hn hnm (follows_rdlen hr (encData_pos _ h h1))

theorem follows_rrs {s : RRset} (hn : s.name.WF) (hnm : s.name ∈ ns) (rds : List RData) (h : ∀ rd ∈ rds, rd.Typed ∧ 1 ≤ rd.size)
    (hm : ∀ n ∈ rds.flatMap (fun rd => rd.fields.flatMap FieldVal.names), n ∈ ns) :
    Follows (TailSet ns) (s.rrs_to_wire rds) (Enc.all (rds.map fun rd => Enc.seq (encOwner Memory.table s) (Enc.measured (encData Memory.table rd)))) := by
  induction rds with
  | nil => exact Follows.nil
  | cons rd rds ih =>
    exact (follows_rr hc hn hnm (h rd (by simp)).1 (h rd (by simp)).2 fun n hx => hm n (by rw [List.flatMap_cons]; exact List.mem_append_left _ hx)).seq
      (ih (fun x hx => h x (by simp [hx])) fun n hx => hm n (by rw [List.flatMap_cons]; exact List.mem_append_right _ hx))

theorem follows_rrset {s : RRset} (h : s.Typed) (h1 : ∀ rd ∈ s.rdatas, 1 ≤ rd.size) (hm : ∀ n ∈ s.names, n ∈ ns) :
    Follows (TailSet ns) s.to_wire (encSet Memory.table s) := by
  unfold RRset.to_wire encSet encSetWith
  have hn := hm s.name (by simp [RRset.names])
  split
  · exact follows_owner hc h.1 hn (Follows.u16 0)
  · exact follows_rrs hc h.1 hn _ (fun rd hr => ⟨h.2 rd hr, h1 rd hr⟩) fun n hx => hm n (List.mem_cons_of_mem _ hx)

theorem follows_sets (sets : List RRset) (h : ∀ s ∈ sets, s.Typed ∧ ∀ rd ∈ s.rdatas, 1 ≤ rd.size) (hm : ∀ n ∈ sets.flatMap RRset.names, n ∈ ns) :
    Follows (TailSet ns) (Section.toLoop sets) (Enc.all (sets.map (encSet Memory.table))) := by
  induction sets with
  | nil => exact Follows.nil
  | cons s sets ih =>
    exact (follows_rrset hc (h s (by simp)).1 (h s (by simp)).2 fun n hx => hm n (by rw [List.flatMap_cons]; exact List.mem_append_left _ hx)).seq
      (ih (fun x hx => h x (by simp [hx])) fun n hx => hm n (by rw [List.flatMap_cons]; exact List.mem_append_right _ hx))

theorem follows_section {s : Section} (h : ∀ sets, s = some sets → ∀ x ∈ sets, x.Typed ∧ ∀ rd ∈ x.rdatas, 1 ≤ rd.size)
    (hm : ∀ n ∈ Section.names s, n ∈ ns) : Follows (TailSet ns) (Section.to_wire s) (encSection Memory.table s) := by
  match s with
  | none => exact Follows.nil
  | some sets => exact follows_sets hc sets (h sets rfl) hm

theorem follows_question {q : Question} (h : q.name.WF) (hm : q.name ∈ ns) : Follows (TailSet ns) q.to_wire (encQuestion Memory.table q) := by
  have := (follows_name hc.noClash (inS_of_mem h hm)).seq ((Follows.u16 q.typ.as_u16).seq (Follows.u16 q.class_.to_u16))
  rw [Enc.seq_octets] at this
  exact this

end

theorem follows_header (S : List Label → Prop) (h : Header) : Follows S h.to_wire (encHeader h) := by
  have := (Follows.u16 (S := S) h.id).seq ((Follows.u16 h.header_flag).seq ((Follows.u16 h.qd_count).seq ((Follows.u16 h.an_count).seq
    ((Follows.u16 h.ns_count).seq (Follows.u16 h.ar_count)))))
  simp only [Enc.seq_octets] at this
  unfold encHeader
  simp only [List.append_assoc]
  exact this

theorem follows_body {m : Response} (hm : m.Typed) (h1 : m.NoEmptyData) (hc : ClashFree m.names) :
    Follows (TailSet m.names) m.body (Enc.seq (encSection Memory.table m.answer) (Enc.seq (encSection Memory.table m.authority) (encSection Memory.table m.additional))) := by
  have hs : ∀ t, (∀ n ∈ Section.names (m.section_ t), n ∈ m.names) → Follows (TailSet m.names) (Section.to_wire (m.section_ t)) (encSection Memory.table (m.section_ t)) := fun t hn =>
    follows_section hc (fun sets h x hx => ⟨hm.sections t sets h x hx, h1 t sets h x hx⟩) hn
  exact (hs .Answer fun n hn => by simp only [Response.section_] at hn; simp [Response.names, hn]).seq
    ((hs .Authority fun n hn => by simp only [Response.section_] at hn; simp [Response.names, hn]).seq
      (hs .Additional fun n hn => by simp only [Response.section_] at hn; simp [Response.names, hn]))

theorem follows_head {m : Response} (hm : m.Typed) (hc : ClashFree m.names) :
    Follows (TailSet m.names) (m.header.to_wire >>= fun _ => m.question.to_wire) (encHead Memory.table m) :=
  (follows_header _ m.header).seq (follows_question hc hm.question (by simp [Response.names]))

/-- header, question and records with room for all of them -/
theorem encoded_ok {m : Response} (hm : m.Typed) (h1 : m.NoEmptyData) (hc : ClashFree m.names) (backing : List UInt8)
    (hfit : (m.encodedBy Memory.table).length ≤ backing.length) :
    ∃ r, m.to_wire (Render.new backing) = (.ok (m.encodedBy Memory.table).length, r) ∧ r.data = (m.encodedBy Memory.table) := by
  have hcap : (Render.new backing).buffer.capacity = backing.length := by simp [Render.new, OutBuf.new, OutBuf.capacity]
  have hdat : (Render.new backing).data = [] := by simp [Render.data, OutBuf.contents, Render.new, OutBuf.new]
  have hl0 : (Render.new backing).buffer.len = 0 := rfl
  have hf := (follows_header (TailSet m.names) m.header).seq ((follows_question hc hm.question (by simp [Response.names])).seq (follows_body hm h1 hc))
  rw [← Enc.seq_assoc] at hf
  obtain ⟨r, a1, a2, a3⟩ := hf.ok (Render.new backing) Mem.none [] (RInv.new _ _ fun _ => rfl) (DictOK.new _ _) (by simp)
    (by rw [hl0, hcap]; show 0 + (m.encodedBy Memory.table).length ≤ _; omega)
  rw [hl0] at a2
  have hd : r.data = (m.encodedBy Memory.table) := by rw [a2.data, hdat, List.nil_append]; rfl
  refine ⟨r, ?_, hd⟩
  obtain ⟨_, r1, b1, b2⟩ := St.bind_ok_inv a1
  obtain ⟨_, r2, c1, c2⟩ := St.bind_ok_inv b2
  rw [Response.to_wire_eq m _ _ _ _ b1 c1 c2]
  have : r.len = r.data.length := (OutBuf.contents_length a2.inv.buf).symm
  rw [this, hd]

/-! ## when the records do not fit -/

theorem spelled_eq {d : Dict} {ls : List Label} {lu : Nat} (h1 : ∀ j, j < lu → j < ls.length → d.lookup (ls.drop j) = none)
    (h2 : lu < ls.length → (d.lookup (ls.drop lu)).isSome) (h3 : lu < ls.length ∨ lu = ls.length + 1) :
    spelled d ls = if lu < ls.length then (wire (ls.take lu)).length else (nameWire ls).length := by
  induction ls generalizing lu with
  | nil => rw [if_neg (by simp)]; simp [spelled, nameWire]
  | cons l ls ih =>
    cases lu with
    | zero =>
      have := h2 (by simp)
      rw [List.drop_zero] at this
      simp [spelled, this]
    | succ lu =>
      have h0 := h1 0 (by omega) (by simp)
      rw [List.drop_zero] at h0
      have hrec := ih (lu := lu) (fun j a b => by have := h1 (j + 1) (by omega) (by simpa using b); simpa using this)
        (fun a => by have := h2 (by simpa using a); simpa using this) (by simp at h3; omega)
      have hunf : spelled d (l :: ls) = l.length + 1 + spelled d ls := by
        rw [spelled, h0]; simp
      rw [hunf, hrec]
      by_cases hlt : lu < ls.length
      · rw [if_pos hlt, if_pos (show lu + 1 < (l :: ls).length by simpa using hlt)]
        rw [List.take_succ_cons, wire_length_cons]
      · rw [if_neg hlt, if_neg (show ¬ lu + 1 < (l :: ls).length by simpa using hlt)]
        simp only [nameWire, List.length_append, List.length_singleton, wire_length_cons]; omega

/-- a name that does not fit leaves nothing behind, exactly if its first piece does not fit -/
theorem write_name_fail {S : List Label → Prop} (hS : NoClash S) {n : Name} (hn : InS S n)
    {r : Render} {g : Mem} {d : Dict} (h : RInv r g) (hd : DictOK r g d) (hdS : ∀ e ∈ d, S e.1) {r' : Render}
    (he : Render.write_name n true r = (.err, r')) :
    (r'.data = r.data ↔ r.buffer.capacity < r.buffer.len + firstPiece d n.labelList) := by
  obtain ⟨ls, hv, rfl, hls⟩ := hn
  rw [labels_ofLabels hv] 
  obtain ⟨lu, off, k1, k2, k3, k4, k5, k6⟩ := write_name_dict hS hv hls h hd hdS
  have hno : ¬ r.buffer.len + (encLabels Memory.table d r.buffer.len ls).1.length ≤ r.buffer.capacity := by
    intro hfit
    obtain ⟨x, hx, _⟩ := k5 hfit
    rw [he] at hx; simp at hx
  obtain ⟨_, hb⟩ := k6 hno
  rw [he] at hb
  simp only at hb
  have hbi : r.buffer.len ≤ r.buffer.capacity := h.buf
  have hlu : lu < ls.length ∨ lu = ls.length + 1 := by rcases k1 with ⟨_, h⟩ | ⟨_, _, h, _⟩ <;> omega
  have hsp := spelled_eq k2 (fun a => by rw [k3 a]; rfl) hlu
  have hfits : r.buffer.len + (Render.leftover ls lu off (r.buffer.capacity - r.buffer.len)).length ≤ r.buffer.capacity := by
    unfold Render.leftover
    split
    · simpa using hbi
    · rename_i hc
      have : ¬ r.buffer.capacity - r.buffer.len < (wire (ls.take lu)).length := fun h => hc (Or.inr h)
      omega
  have hdat : r'.data = r.data ++ Render.leftover ls lu off (r.buffer.capacity - r.buffer.len) := by
    show r'.buffer.contents = r.buffer.contents ++ _
    rw [hb, OutBuf.append_contents hfits]
  have hiff : r'.data = r.data ↔ Render.leftover ls lu off (r.buffer.capacity - r.buffer.len) = [] := by
    rw [hdat]; simp
  rw [hiff]
  rw [k4] at hno
  unfold firstPiece
  rw [hsp]
  rcases k1 with ⟨a1, a2⟩ | ⟨_, a1, a2, _⟩
  · have hnw : 0 < (nameWire ls).length := by simp [nameWire]
    rw [if_neg (show ¬ lu < ls.length by omega), if_neg (by omega)]
    simp only [Render.emitted, if_pos a1] at hno
    unfold Render.leftover
    rw [if_pos (Or.inl a1)]
    simp only [true_iff]; omega
  · rw [if_pos a2]
    simp only [Render.emitted, if_neg a1, List.length_append, List.length_cons, List.length_nil] at hno
    unfold Render.leftover
    by_cases h0 : (wire (ls.take lu)).length = 0
    · rw [if_pos h0]
      have : wire (ls.take lu) = [] := List.length_eq_zero_iff.mp h0
      rw [this]
      simp only [ite_self, true_iff]; omega
    · rw [if_neg h0]
      by_cases hc : r.buffer.capacity - r.buffer.len < (wire (ls.take lu)).length
      · rw [if_pos (Or.inr hc)]; simp only [true_iff]; omega
      · rw [if_neg (by rintro (h | h); exact a1 h; exact hc h)]
        have : wire (ls.take lu) ≠ [] := fun hx => h0 (by rw [hx]; rfl)
        simp only [this, false_iff]; omega

/-- a name that is written has room for its first piece -/
theorem firstPiece_le {S : List Label → Prop} (hS : NoClash S) {n : Name} (hn : InS S n)
    {r : Render} {g : Mem} {d : Dict} (h : RInv r g) (hd : DictOK r g d) (hdS : ∀ e ∈ d, S e.1) {r' : Render} {u : Unit}
    (he : Render.write_name n true r = (.ok u, r')) : r.buffer.len + firstPiece d n.labelList ≤ r.buffer.capacity := by
  obtain ⟨ls, hv, rfl, hls⟩ := hn
  rw [labels_ofLabels hv] 
  obtain ⟨lu, off, k1, k2, k3, k4, k5, k6⟩ := write_name_dict hS hv hls h hd hdS
  by_cases hfit : r.buffer.len + (encLabels Memory.table d r.buffer.len ls).1.length ≤ r.buffer.capacity
  · have hlu : lu < ls.length ∨ lu = ls.length + 1 := by rcases k1 with ⟨_, h⟩ | ⟨_, _, h, _⟩ <;> omega
    have hsp := spelled_eq k2 (fun a => by rw [k3 a]; rfl) hlu
    rw [k4] at hfit
    unfold firstPiece
    rw [hsp]
    rcases k1 with ⟨a1, a2⟩ | ⟨_, a1, a2, _⟩
    · have hnw : 0 < (nameWire ls).length := by simp [nameWire]
      rw [if_neg (show ¬ lu < ls.length by omega), if_neg (by omega)]
      simp only [Render.emitted, if_pos a1] at hfit
      exact hfit
    · rw [if_pos a2]
      simp only [Render.emitted, if_neg a1, List.length_append, List.length_cons, List.length_nil] at hfit
      split <;> omega
  · have := (k6 hfit).1
    rw [he] at this
    simp at this

/-! ## the first owner name in the reference encoding -/

def Enc.Grows (e : Enc) : Prop := ∀ d p, d <+: (e d p).2

namespace Enc.Grows
variable {k : Memory}
theorem octets (o : List UInt8) : Enc.Grows (Enc.octets o) := fun d _ => List.prefix_refl d
theorem name (n : Name) : Enc.Grows (Enc.name k n) := fun d p => encLabels_grows k d p _
theorem seq {a b : Enc} (h1 : a.Grows) (h2 : b.Grows) : (Enc.seq a b).Grows := fun d p => (h1 d p).trans (h2 _ _)
theorem all (es : List Enc) (h : ∀ e ∈ es, e.Grows) : (Enc.all es).Grows := by
  induction es with
  | nil => exact octets []
  | cons e es ih => exact seq (h e (by simp)) (ih fun x hx => h x (by simp [hx]))
theorem measured {e : Enc} (h : e.Grows) : (Enc.measured e).Grows := fun d p => h d (p + 2)
theorem strings (ss : List (List UInt8)) : (Enc.all (ss.map fun s => Enc.octets (withLen s))).Grows := by
  rw [Enc.all_strings]; exact octets _
theorem data (rd : RData) : (encData k rd).Grows := by
  unfold encData rfcData layout Enc.fields
  simp only
  split
  case h_8 => exact strings _
  all_goals
    simp only [Option.getD_some, Option.getD_none, Enc.all]
    repeat first | exact octets _ | exact name _ | refine seq ?_ ?_
theorem set (s : RRset) : (encSet k s).Grows := by
  have ho : (encOwner k s).Grows := (name _).seq (octets _)
  unfold encSet encSetWith
  split
  · exact ho.seq (octets _)
  · refine all _ fun e he => ?_
    obtain ⟨rd, _, rfl⟩ := List.mem_map.mp he
    exact ho.seq (measured (data rd))
theorem sets (ss : List RRset) : (Enc.all (ss.map (encSet k))).Grows := by
  refine all _ fun e he => ?_
  obtain ⟨s, _, rfl⟩ := List.mem_map.mp he
  exact set s
theorem «section» (s : Section) : (encSection k s).Grows := sets _
end Enc.Grows

theorem section_head (s : Section) : Section.records s = [] ∨ ∃ x rest, Section.records s = x :: rest ∧ x.name ∈ Section.names s := by
  match s with
  | none => exact Or.inl rfl
  | some [] => exact Or.inl rfl
  | some (s :: ss) =>
    obtain ⟨x, rest, h1, h2⟩ := records_head (s := s)
    exact Or.inr ⟨x, rest ++ ss.flatMap RRset.records, by simp [Section.records, h1], by simp [Section.names, RRset.names, h2]⟩

theorem records_names {m : Response} {x : RRset} {rest : List RRset} (h : m.records = x :: rest) : x.name ∈ m.names := by
  unfold Response.records at h
  unfold Response.names
  rcases section_head m.answer with h1 | ⟨y, r, h1, h2⟩
  · rw [h1, List.nil_append] at h
    rcases section_head m.authority with k1 | ⟨y, r, k1, k2⟩
    · rw [k1, List.nil_append] at h
      rcases section_head m.additional with j1 | ⟨y, r, j1, j2⟩
      · rw [j1] at h; simp at h
      · rw [j1] at h
        simp only [List.cons.injEq] at h
        obtain ⟨rfl, _⟩ := h
        simp [j2]
    · rw [k1] at h
      simp only [List.cons_append, List.cons.injEq] at h
      obtain ⟨rfl, _⟩ := h
      simp [k2]
  · rw [h1] at h
    simp only [List.cons_append, List.cons.injEq] at h
    obtain ⟨rfl, _⟩ := h
    simp [h2]

theorem encLabels_nil (k : Memory) (pos : Nat) (ls : List Label) : (encLabels k [] pos ls).1 = nameWire ls := by
  rw [encLabels_spell k (ls.length + 1) [] pos ls (by simp) (Or.inr rfl), if_neg (by omega)]

theorem encHead_eq {k : Memory} {m : Response} (hm : m.Typed) :
    (encHead k m [] 0).1 = m.header.octets ++ (m.question.name.raw ++ (be16 m.question.typ.as_u16 ++ be16 m.question.class_.to_u16)) := by
  obtain ⟨ls, hv, hq⟩ := hm.question
  have : m.question.name.raw = nameWire ls := by rw [hq, Name.ofLabels_raw, nameWire_eq]
  unfold encHead encHeader encQuestion Enc.seq Enc.name Enc.octets
  simp only
  rw [this, hq, labels_ofLabels hv, encLabels_nil]
  simp [Header.octets]

theorem encHead_length {k : Memory} {m : Response} (hm : m.Typed) : (encHead k m [] 0).1.length = m.headSize := by
  rw [encHead_eq hm]
  simp only [List.length_append, Header.octets_length, be16_length, Response.headSize]

/-- the truncated message: TC set, counts zero, the question, no records -/
theorem cut_encoded (k : Memory) {m : Response} (hm : m.Typed) (h : Header) :
    (⟨h, m.question, none, none, none⟩ : Response).encodedBy k = h.octets ++ (m.question.name.raw ++ (be16 m.question.typ.as_u16 ++ be16 m.question.class_.to_u16)) := by
  have ht : (⟨h, m.question, none, none, none⟩ : Response).Typed := ⟨hm.question, fun t sets hs => by cases t <;> simp [Response.section_] at hs⟩
  have := encHead_eq (k := k) ht
  unfold Response.encodedBy encMessage encMessageWith
  have hz : encSectionWith k (encData k) none = Enc.octets [] := rfl
  simp only [hz, Enc.seq_nil]
  exact this

/-- header and question fit, the records do not -/
theorem encoded_cut {m : Response} (hm : m.Typed) (h1 : m.NoEmptyData) (hc : ClashFree m.names) (backing : List UInt8)
    (hlo : m.headSize ≤ backing.length) (hhi : backing.length < (m.encodedBy Memory.table).length) :
    (backing.length < m.headSize + (m.firstPiece Memory.table) → (m.to_wire (Render.new backing)).1 = .panic) ∧
    (m.headSize + (m.firstPiece Memory.table) ≤ backing.length → ∃ r, m.to_wire (Render.new backing) = (.ok m.headSize, r) ∧
      r.data = m.header.truncated.octets ++ (m.question.name.raw ++ (be16 m.question.typ.as_u16 ++ be16 m.question.class_.to_u16))) := by
  have hcap : (Render.new backing).buffer.capacity = backing.length := by simp [Render.new, OutBuf.new, OutBuf.capacity]
  have hdat : (Render.new backing).data = [] := by simp [Render.data, OutBuf.contents, Render.new, OutBuf.new]
  have hl0 : (Render.new backing).buffer.len = 0 := rfl
  have hfh := follows_head hm hc
  have hfb := follows_body hm h1 hc
  have hlen := encHead_length (k := Memory.table) hm
  obtain ⟨r2, a1, a2, a3⟩ := hfh.ok (Render.new backing) Mem.none [] (RInv.new _ _ fun _ => rfl) (DictOK.new _ _) (by simp)
    (by rw [hl0, hcap, hlen]; omega)
  rw [hl0] at a2 a3
  have hd2 : r2.data = (encHead Memory.table m [] 0).1 := by rw [a2.data, hdat, List.nil_append]
  have hl2 : r2.buffer.len = m.headSize := by rw [a2.len, hl0, hlen]; omega
  have hc2 : r2.buffer.capacity = backing.length := by rw [a2.cap, hcap]
  have hrun : m.to_wire (Render.new backing) = m.sectionsLoop m.headSize [m.answer, m.authority, m.additional] r2 := by
    obtain ⟨_, r1, b1, b2⟩ := St.bind_ok_inv a1
    unfold Response.to_wire
    rw [St.bind_ok b1, St.bind_ok b2, St.get_bind]
    show m.sectionsLoop r2.buffer.len _ r2 = _
    rw [hl2]
  have hkeep := hfh.keeps [] 0 (by simp)
  have hee : (m.encodedBy Memory.table).length = (encHead Memory.table m [] 0).1.length +
      (Enc.seq (encSection Memory.table m.answer) (Enc.seq (encSection Memory.table m.authority) (encSection Memory.table m.additional)) (encHead Memory.table m [] 0).2 (0 + (encHead Memory.table m [] 0).1.length)).1.length := by
    unfold Response.encodedBy encMessage encMessageWith
    rw [Enc.seq]
    simp only [List.length_append]
  rw [Nat.zero_add, hlen, ← hl2] at hee
  have herr := hfb.err r2 _ _ a2.inv a3 hkeep (by rw [hc2]; omega)
  generalize hb : m.body r2 = x at herr
  obtain ⟨y, r3⟩ := x
  simp only at herr
  subst herr
  rw [hrun, sectionsLoop_eq, hb]
  simp only
  rcases total_body hm r2 _ a2.inv with ⟨_, out, f1, _⟩ | ⟨r3', f1, f2⟩
  · rw [hb] at f1; simp at f1
  rw [hb] at f1
  simp only [Prod.mk.injEq, true_and] at f1
  subst f1
  obtain ⟨dx, hdx⟩ := f2.data
  obtain ⟨g', _, hi3⟩ := f2.inv
  have hsp := truncate_spec m hi3.buf (m.question.name.raw ++ (be16 m.question.typ.as_u16 ++ be16 m.question.class_.to_u16)) dx (by rw [hdx, hd2, encHead_eq hm])
  have hql : 12 + (m.question.name.raw ++ (be16 m.question.typ.as_u16 ++ be16 m.question.class_.to_u16)).length = m.headSize := by
    simp only [List.length_append, be16_length, Response.headSize]
  rw [hql] at hsp
  have hkey : dx = [] ↔ backing.length < m.headSize + (m.firstPiece Memory.table) := by
    rcases startsWith_body hm with ⟨k1, k2⟩ | ⟨x, rest, k1, k2, k3⟩
    · rw [k2] at hb; simp at hb
    · have hfp : (m.firstPiece Memory.table) = firstPiece (encHead Memory.table m [] 0).2 x.name.labelList := by unfold Response.firstPiece; rw [k1]
      have hx : InS (TailSet m.names) x.name := by
        refine inS_of_mem k2 ?_
        exact records_names k1
      obtain ⟨rest', k4, k5⟩ := k3
      have hb' := hb
      rw [k5] at hb'
      cases hw : Render.write_name x.name true r2 with
      | mk y s =>
        cases y with
        | ok u =>
          have hne := body_data k2 ⟨rest', k4, k5⟩ a2.inv (by rw [hw]) hb
          constructor
          · intro hd0; exact absurd (by rw [hdx, hd0, List.append_nil]) hne
          · intro hlt
            exfalso
            have hfit : r2.buffer.len + firstPiece (encHead Memory.table m [] 0).2 x.name.labelList ≤ r2.buffer.capacity := by
              refine firstPiece_le hc.noClash hx a2.inv a3 hkeep hw
            omega
        | err =>
          have hr3 : s = r3 := by
            rw [St.bind_err hw] at hb'
            simpa using hb'
          subst hr3
          have := write_name_fail hc.noClash hx a2.inv a3 hkeep hw
          rw [hdx, hl2, hc2, ← hfp] at this
          rw [← this]; simp
        | panic =>
          rw [St.bind_panic hw] at hb'
          simp at hb'
  refine ⟨fun hp => ?_, fun hp => ?_⟩
  · obtain ⟨r4, t1⟩ := hsp.2 (hkey.mpr hp)
    have : (do m.truncate m.headSize; pure m.headSize : St Render Nat) r3 = (.panic, r4) := St.bind_panic t1
    rw [this]
  · obtain ⟨r4, t1, _, _, t4⟩ := hsp.1 (fun hd0 => by have := hkey.mp hd0; omega)
    have : (do m.truncate m.headSize; pure m.headSize : St Render Nat) r3 = (.ok m.headSize, r4) := St.bind_ok t1
    rw [this]
    exact ⟨r4, rfl, t4⟩

/-! ## a table with enough places is like one that remembers everything -/

theorem sharing_append (a b : Dict) (ls : List Label) : (a ++ b).sharing ls = a.sharing ls ++ b.sharing ls := by
  unfold Dict.sharing; exact List.filter_append _ _

theorem Roomy.prefix {d d' : Dict} (h : Roomy d') (hp : d <+: d') : Roomy d := fun e he =>
  Nat.le_trans ((hp.sublist.filter _).length_le) (h e (hp.subset he))

theorem Roomy.table {d : Dict} {ls : List Label} {p : Nat} (h : Roomy (d ++ [(ls, p)])) : Memory.table d ls = true := by
  have := h (ls, p) (by simp)
  rw [sharing_append, List.length_append] at this
  have h1 : (Dict.sharing [(ls, p)] ls).length = 1 := by simp [Dict.sharing]
  unfold Memory.table
  simp only [decide_eq_true_eq]
  simp only at this
  omega

/-- the same octets and entries, if the table has the places -/
structure Agrees (e e' : Enc) : Prop where
  grows : e'.Grows
  same : ∀ d p, Roomy (e' d p).2 → e d p = e' d p

namespace Agrees
theorem octets (o : List UInt8) : Agrees (Enc.octets o) (Enc.octets o) := ⟨Enc.Grows.octets o, fun _ _ _ => rfl⟩
theorem seq {a a' b b' : Enc} (h1 : Agrees a a') (h2 : Agrees b b') : Agrees (Enc.seq a b) (Enc.seq a' b') := by
  refine ⟨h1.grows.seq h2.grows, fun d p h => ?_⟩
  have e1 := h1.same d p (h.prefix (h2.grows _ _))
  unfold Enc.seq
  simp only
  rw [e1, h2.same _ _ h]
theorem measured {e e' : Enc} (h : Agrees e e') : Agrees (Enc.measured e) (Enc.measured e') := by
  refine ⟨h.grows.measured, fun d p hr => ?_⟩
  unfold Enc.measured
  rw [h.same _ _ hr]
theorem all {α : Type} (f g : α → Enc) (xs : List α) (h : ∀ x ∈ xs, Agrees (f x) (g x)) : Agrees (Enc.all (xs.map f)) (Enc.all (xs.map g)) := by
  induction xs with
  | nil => exact octets []
  | cons x xs ih => exact seq (h x (by simp)) (ih fun y hy => h y (by simp [hy]))

theorem labels (d : Dict) (p : Nat) (ls : List Label) (h : Roomy (encLabels Memory.all d p ls).2) :
    encLabels Memory.table d p ls = encLabels Memory.all d p ls := by
  induction ls generalizing d p with
  | nil => rfl
  | cons l ls ih =>
    cases hl : d.lookup (l :: ls) with
    | some q =>
      conv => lhs; rw [encLabels]
      conv => rhs; rw [encLabels]
      rw [hl]
    | none =>
      have hall : encLabels Memory.all d p (l :: ls) = (labelWire l ++ (encLabels Memory.all (if p ≤ 0x3fff then d ++ [(l :: ls, p)] else d) (p + (l.length + 1)) ls).1,
          (encLabels Memory.all (if p ≤ 0x3fff then d ++ [(l :: ls, p)] else d) (p + (l.length + 1)) ls).2) := by
        conv => lhs; rw [encLabels]
        rw [hl]
        simp only [Memory.all, and_true]
      rw [hall] at h ⊢
      simp only at h
      have hcond : (if p ≤ 0x3fff ∧ Memory.table d (l :: ls) then d ++ [(l :: ls, p)] else d) = if p ≤ 0x3fff then d ++ [(l :: ls, p)] else d := by
        by_cases hp : p ≤ 0x3fff
        · rw [if_pos hp] at h ⊢
          rw [if_pos ⟨hp, (h.prefix (encLabels_grows _ _ _ _)).table⟩]
        · rw [if_neg hp, if_neg (fun hx => hp hx.1)]
      conv => lhs; rw [encLabels]
      rw [hl]
      simp only
      rw [hcond, ih _ _ h]

theorem name (n : Name) : Agrees (Enc.name Memory.table n) (Enc.name Memory.all n) := ⟨Enc.Grows.name n, fun d p h => labels d p _ h⟩

theorem data (rd : RData) : Agrees (encData Memory.table rd) (encData Memory.all rd) := by
  unfold encData rfcData layout Enc.fields
  simp only
  split
  case h_8 => simp only [Option.getD_some]; rw [Enc.all_strings]; exact octets _
  all_goals
    simp only [Option.getD_some, Option.getD_none, Enc.all]
    repeat first | exact octets _ | exact name _ | refine seq ?_ ?_

theorem set (s : RRset) : Agrees (encSet Memory.table s) (encSet Memory.all s) := by
  have ho : Agrees (encOwner Memory.table s) (encOwner Memory.all s) := (name _).seq (octets _)
  unfold encSet encSetWith
  split
  · exact ho.seq (octets _)
  · exact all _ _ _ fun rd _ => ho.seq (data rd).measured

theorem «section» (s : Section) : Agrees (encSection Memory.table s) (encSection Memory.all s) := all _ _ _ fun x _ => set x

theorem head (m : Response) : Agrees (encHead Memory.table m) (encHead Memory.all m) := (octets _).seq ((name _).seq (octets _))

theorem message (m : Response) : Agrees (encMessage Memory.table m) (encMessage Memory.all m) :=
  (head m).seq ((«section» _).seq ((«section» _).seq («section» _)))
end Agrees

theorem encoded_table {m : Response} (h : Roomy m.dictionary) : m.encodedBy Memory.table = m.encoded := by
  show (encMessage Memory.table m [] 0).1 = (encMessage Memory.all m [] 0).1
  rw [(Agrees.message m).same _ _ h]

theorem firstPiece_table {m : Response} (h : Roomy (encHead Memory.all m [] 0).2) : m.firstPiece Memory.table = m.firstPiece Memory.all := by
  unfold Response.firstPiece
  rw [(Agrees.head m).same _ _ h]

theorem dictionary_head (m : Response) : (encHead Memory.all m [] 0).2 <+: m.dictionary :=
  ((Agrees.section m.answer).seq ((Agrees.section m.authority).seq (Agrees.section m.additional))).grows _ _

end R53
