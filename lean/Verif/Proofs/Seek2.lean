import Verif.Proofs.Seek
import Verif.Proofs.Encode2
import Verif.Proofs.Panic
/-!
# The renderer follows the encoder with its own search: records and messages, for any names
-/
namespace R53
open Name (ofLabels)

/-- `w` writes what `e` says -/
structure Tracks (w : St Render Unit) (e : Seek) : Prop where
  ok : ∀ r g d, RInv r g → DictHas r g d → ∀ x, e d r.buffer.len = some x → r.buffer.len + x.room ≤ r.buffer.capacity →
    ∃ r', w r = (.ok (), r') ∧ Wrote r r' g x.octets ∧ DictHas r' (g.ext r.buffer.len x.octets) x.names
  err : ∀ r g d, RInv r g → DictHas r g d → (∀ x, e d r.buffer.len = some x → ¬ r.buffer.len + x.room ≤ r.buffer.capacity) → (w r).1 = .err

/-- the encoder asks for room for its octets at least -/
def Seek.Wide (e : Seek) : Prop := ∀ d p x, e d p = some x → x.octets.length ≤ x.room

namespace Seek
theorem seq_assoc (a b c : Seek) : seq (seq a b) c = seq a (seq b c) := by
  funext d p
  unfold seq
  cases a d p with
  | none => rfl
  | some x =>
    simp only [Option.bind_some]
    cases b x.names (p + x.octets.length) with
    | none => rfl
    | some y =>
      simp only [Option.map_some, Option.bind_some, List.length_append, Nat.add_assoc]
      cases c y.names (p + (x.octets.length + y.octets.length)) with
      | none => rfl
      | some z => simp only [Option.map_some, List.append_assoc, Option.some.injEq, Written.mk.injEq, true_and]; omega

theorem seq_octets (a b : List UInt8) : seq (octets a) (octets b) = octets (a ++ b) := by
  funext d p
  simp only [seq, octets, Option.bind_some, Option.map_some, List.length_append, Option.some.injEq, Written.mk.injEq, true_and]
  omega

theorem Wide.octets (o : List UInt8) : (Seek.octets o).Wide := fun d p x h => by
  simp only [Seek.octets, Option.some.injEq] at h; subst h; exact Nat.le_refl _
theorem Wide.name (n : Name) : (Seek.name n).Wide := fun d p x h => by
  simp only [Seek.name, Option.map_eq_some_iff] at h
  obtain ⟨y, _, rfl⟩ := h
  exact Nat.le_refl _
theorem seq_some {a b : Seek} {d : Dict} {p : Nat} {z : Written} : seq a b d p = some z ↔
    ∃ x y, a d p = some x ∧ b x.names (p + x.octets.length) = some y ∧ z = ⟨x.octets ++ y.octets, y.names, max x.room (x.octets.length + y.room)⟩ := by
  unfold seq
  rw [Option.bind_eq_some_iff]
  constructor
  · rintro ⟨x, h1, h2⟩
    obtain ⟨y, h3, rfl⟩ := Option.map_eq_some_iff.mp h2
    exact ⟨x, y, h1, h3, rfl⟩
  · rintro ⟨x, y, h1, h2, rfl⟩
    exact ⟨x, h1, by rw [h2]; rfl⟩
theorem Wide.seq {a b : Seek} (h1 : a.Wide) (h2 : b.Wide) : (Seek.seq a b).Wide := fun d p z h => by
  obtain ⟨x, y, hx, hy, rfl⟩ := seq_some.mp h
  have := h1 _ _ _ hx
  have := h2 _ _ _ hy
  simp only [List.length_append]
  omega
theorem seq_nil {e : Seek} (h : e.Wide) : seq e (octets []) = e := by
  funext d p
  unfold seq octets
  cases he : e d p with
  | none => rfl
  | some x =>
    have := h _ _ _ he
    simp only [Option.bind_some, Option.map_some, List.append_nil, List.length_nil, Nat.add_zero, Option.some.injEq]
    rw [Nat.max_eq_left this]
theorem Wide.all (es : List Seek) (h : ∀ e ∈ es, e.Wide) : (Seek.all es).Wide := by
  induction es with
  | nil => exact Wide.octets []
  | cons e es ih => exact Wide.seq (h e (by simp)) (ih fun x hx => h x (by simp [hx]))
end Seek

namespace Tracks

theorem nil : Tracks (Pure.pure ()) (Seek.octets []) where
  ok r g d hr hd x hx _ := by
    simp only [Seek.octets, Option.some.injEq] at hx
    subst hx
    exact ⟨r, rfl, Wrote.nil hr, by show DictHas r (g.ext _ []) d; rw [Mem.ext_nil]; exact hd⟩
  err r g d hr _ hno := absurd (by simpa [OutBuf.Inv] using hr.buf) (hno ⟨[], d, 0⟩ rfl)

theorem seq {w1 w2 : St Render Unit} {e1 e2 : Seek} (h1 : Tracks w1 e1) (h2 : Tracks w2 e2) : Tracks (w1 >>= fun _ => w2) (Seek.seq e1 e2) where
  ok r g d hr hd z hz hfit := by
    obtain ⟨x, y, hx, hy, rfl⟩ := Seek.seq_some.mp hz
    simp only at hfit ⊢
    obtain ⟨r1, a1, a2, a3⟩ := h1.ok r g d hr hd x hx (by omega)
    have hl := a2.len
    have hc := a2.cap
    rw [← hl] at hy
    obtain ⟨r2, b1, b2, b3⟩ := h2.ok r1 _ _ a2.inv a3 y hy (by omega)
    refine ⟨r2, by rw [St.bind_ok a1]; exact b1, a2.trans b2, ?_⟩
    rw [← Mem.ext_ext, ← hl]; exact b3
  err r g d hr hd hno := by
    by_cases hf1 : ∃ x, e1 d r.buffer.len = some x ∧ r.buffer.len + x.room ≤ r.buffer.capacity
    · obtain ⟨x, hx, hfit⟩ := hf1
      obtain ⟨r1, a1, a2, a3⟩ := h1.ok r g d hr hd x hx hfit
      have hl := a2.len
      have hc := a2.cap
      rw [St.bind_ok a1]
      refine h2.err r1 _ _ a2.inv a3 fun y hy hfit2 => ?_
      rw [hl] at hy
      refine hno _ (Seek.seq_some.mpr ⟨x, y, hx, hy, rfl⟩) ?_
      simp only
      omega
    · have := h1.err r g d hr hd fun x hx hfit => hf1 ⟨x, hx, hfit⟩
      generalize hw : w1 r = x at this
      obtain ⟨y, s⟩ := x
      simp only at this
      subst this
      rw [St.bind_err hw]

theorem octets {w : St Render Unit} {o : List UInt8}
    (hw : ∀ r, w r = if r.buffer.len + o.length ≤ r.buffer.capacity then (.ok (), { r with buffer := r.buffer.append o }) else (.err, r)) :
    Tracks w (Seek.octets o) where
  ok r g d hr hd x hx hfit := by
    simp only [Seek.octets, Option.some.injEq] at hx
    subst hx
    simp only at hfit ⊢
    obtain ⟨h1, h2, h3⟩ := Render.RInv.append hr hfit
    exact ⟨_, by rw [hw, if_pos hfit], ⟨hfit, rfl, h1⟩, (hd.le h2).same rfl rfl⟩
  err r g d hr _ hno := by
    rw [hw, if_neg (hno ⟨o, d, o.length⟩ rfl)]

theorem u8 (v : UInt8) : Tracks (Render.write_u8 v) (Seek.octets [v]) := octets (Render.write_u8_r v)
theorem u16 (v : UInt16) : Tracks (Render.write_u16 v) (Seek.octets (be16 v)) := octets (Render.write_u16_r v)
theorem u32 (v : UInt32) : Tracks (Render.write_u32 v) (Seek.octets (be32 v)) := octets (Render.write_u32_r v)
theorem bytes (v : List UInt8) : Tracks (Render.write_bytes v) (Seek.octets v) := octets (Render.write_bytes_r v)

theorem name {n : Name} (hn : n.WF) : Tracks (Render.write_name n true) (Seek.name n) := by
  obtain ⟨ls, hv, rfl⟩ := hn
  have hl := labels_ofLabels hv
  refine ⟨fun r g d hr hd x hx hfit => ?_, fun r g d hr hd hno => ?_⟩
  · unfold Seek.name at hx
    rw [hl] at hx
    obtain ⟨y, hy, rfl⟩ := Option.map_eq_some_iff.mp hx
    exact (write_name_seek hv hr hd).1 y hy hfit
  · refine (write_name_seek hv hr hd).2 fun y hy => ?_
    refine hno ⟨y.1, y.2, y.1.length⟩ ?_
    unfold Seek.name
    rw [hl, hy]; rfl

theorem octetsField (o : List UInt8) : Tracks (Field.octets_to_wire o) (Seek.octets o) := by
  induction o with
  | nil => exact nil
  | cons x xs ih =>
    have := seq (u8 x) ih
    rw [Seek.seq_octets] at this
    exact this

theorem bytesField (d : List UInt8) : Tracks (Field.bytes_to_wire d) (Seek.octets (withLen d)) := by
  have := seq (u8 (UInt8.ofNat d.length)) (bytes d)
  rw [Seek.seq_octets] at this
  exact this

theorem textField (ds : List (List UInt8)) : Tracks (Field.text_to_wire ds) (Seek.octets (ds.flatMap withLen)) := by
  induction ds with
  | nil => exact nil
  | cons d ds ih =>
    have := seq (bytesField d) ih
    rw [Seek.seq_octets] at this
    exact this

end Tracks

/-- a field as its codec writes it -/
def seekField : Codec → FieldVal → Seek
  | _, .name n => Seek.name n
  | _, .ip o => Seek.octets o
  | _, .u8 v => Seek.octets [v]
  | _, .u16 v => Seek.octets (be16 v)
  | _, .u32 v => Seek.octets (be32 v)
  | _, .rrtype t => Seek.octets (be16 t.as_u16)
  | _, .text ds => Seek.octets (ds.flatMap withLen)
  | .byte_binary, .bytes s => Seek.octets (withLen s)
  | _, .bytes s => Seek.octets s

theorem seekField_wide (c : Codec) (v : FieldVal) : (seekField c v).Wide := by
  cases v <;> cases c <;> first | exact Seek.Wide.name _ | exact Seek.Wide.octets _

theorem tracks_field (c : Codec) (v : FieldVal) (hv : FieldTyped c v) : Tracks (Field.to_wire c v) (seekField c v) := by
  cases c <;> cases v <;> simp only [FieldTyped] at hv <;> unfold Field.to_wire seekField
  case name.name n => exact Tracks.name hv
  case ipv4.ip o => exact Tracks.octetsField o
  case ipv6.ip o => exact Tracks.octetsField o
  case u8.u8 v => exact Tracks.u8 v
  case u16.u16 v => exact Tracks.u16 v
  case u32.u32 v => exact Tracks.u32 v
  case rrtype.rrtype t => exact Tracks.u16 _
  case text.text ds => exact Tracks.textField ds
  case byte_binary.bytes d => exact Tracks.bytesField d
  case binary.bytes d => exact Tracks.bytes d

theorem tracks_fields (cs : List (Codec × Disp)) (vs : List FieldVal) (hv : FieldsTyped cs vs) :
    Tracks (Field.allTo cs vs) (Seek.all (List.zipWith (fun c v => seekField c.1 v) cs vs)) := by
  induction cs generalizing vs with
  | nil =>
    cases vs with
    | nil => exact Tracks.nil
    | cons v vs => simp [FieldsTyped] at hv
  | cons c cs ih =>
    cases vs with
    | nil => simp [FieldsTyped] at hv
    | cons v vs => exact Tracks.seq (tracks_field c.1 v hv.1) (ih vs hv.2)

theorem Seek.all_strings (ss : List (List UInt8)) : Seek.all (ss.map fun s => Seek.octets (withLen s)) = Seek.octets (ss.flatMap withLen) := by
  induction ss with
  | nil => rfl
  | cons s ss ih => rw [List.map_cons, Seek.all, ih, Seek.seq_octets]; rfl

theorem seekData_schema {rd : RData} {cs : List (Codec × Disp)} (hs : schema rd.kind = some cs) (ht : FieldsTyped cs rd.fields) :
    Seek.data rd = Seek.all (List.zipWith (fun c v => seekField c.1 v) cs rd.fields) := by
  obtain ⟨k, vs⟩ := rd
  unfold Seek.data
  simp only at hs ht ⊢
  replace ht := ht.shape
  cases k <;> simp only [schema, Option.some.injEq, reduceCtorEq] at hs <;> subst hs <;>
    · simp only [FieldsShape, FieldShape] at ht
      repeat (obtain ⟨v, vs, rfl, ⟨x, rfl⟩, ht⟩ := ht)
      simp only [layout, Seek.fields, List.zipWith_cons_cons, List.zipWith_nil_left, seekField, Option.getD_some]
      try simp only [Seek.all_strings, Seek.all, Seek.seq_nil (Seek.Wide.octets _)]

theorem tracks_rdata {rd : RData} (h : rd.Typed) : Tracks rd.to_wire (Seek.data rd) := by
  obtain ⟨cs, hs, hf⟩ := h
  unfold RData.to_wire
  rw [hs, seekData_schema hs hf]
  exact tracks_fields cs rd.fields hf

/-- the length and the data -/
theorem tracks_rdlen {rd : RData} {e : Seek} (h : Tracks rd.to_wire e) : Tracks (RRset.rdata_to_wire rd) (Seek.measured e) := by
  have hsk : ∀ r : Render, r.buffer.len + 2 < r.buffer.capacity → Render.onBuffer (OutBuf.skip 2) r = (.ok (), { r with buffer := { r.buffer with len := r.buffer.len + 2 } }) := by
    intro r hs
    rw [Render.onBuffer_apply]; unfold OutBuf.skip; rw [if_pos hs]
  have hinv : ∀ (r : Render) (g : Mem), RInv r g → r.buffer.len + 2 < r.buffer.capacity → RInv { r with buffer := { r.buffer with len := r.buffer.len + 2 } } g := by
    intro r g hr hs
    obtain ⟨st, k1, k2, k3⟩ := OutBuf.skipped (b := r.buffer) (n := 2) (by omega)
    rw [k3]
    have hi : (r.buffer.append st).Inv := by
      show (r.buffer.append st).len ≤ (r.buffer.append st).capacity
      rw [OutBuf.append_capacity k2]; exact k2
    refine RInv.setBuffer hr hi ?_
    rw [OutBuf.append_contents k2]
    exact Mem.le_append hr.mem _
  refine ⟨fun r g d hr hd x hx hfit => ?_, fun r g d hr hd hno => ?_⟩
  · obtain ⟨y, hy, rfl⟩ := Option.map_eq_some_iff.mp hx
    simp only at hfit ⊢
    have hs : r.buffer.len + 2 < r.buffer.capacity := by omega
    unfold RRset.rdata_to_wire
    rw [St.get_bind]
    simp only [Render.skip]
    rw [St.bind_ok (hsk r hs)]
    have hl : r.buffer.contents.length = r.buffer.len := OutBuf.contents_length hr.buf
    obtain ⟨r2, e1, e2, e3⟩ := h.ok { r with buffer := { r.buffer with len := r.buffer.len + 2 } } g d (hinv r g hr hs) (hd.same rfl rfl) y hy
      (show r.buffer.len + 2 + y.room ≤ r.buffer.capacity by omega)
    simp only at e1 e2 e3
    obtain ⟨body, d', room⟩ := y
    simp only at e1 e2 e3 hfit ⊢
    rw [St.bind_ok e1, St.get_bind]
    have hlen : r2.buffer.len = r.buffer.len + 2 + body.length := e2.len
    have hfit : r.buffer.len + 2 + body.length ≤ r.buffer.capacity := e2.fit
    rw [St.lift_ok_bind (csub_ok (by omega)), St.lift_ok_bind (csub_ok (by omega))]
    rw [show r2.buffer.len - r.buffer.len - 2 = body.length by omega]
    rw [Render.write_u16_at, Render.write_u16_at_r _ _ _ e2.inv.buf, if_pos (by rw [be16_length]; omega)]
    have hbuf : (⟨overwrite r2.buffer.data r.buffer.len (be16 (UInt16.ofNat body.length)), r2.buffer.len⟩ : OutBuf) =
        r.buffer.append (be16 (UInt16.ofNat body.length) ++ body) := by
      rw [OutBuf.append, e2.buf]
      simp only [OutBuf.append, OutBuf.mk.injEq]
      refine ⟨?_, by simp [be16_length]; omega⟩
      rw [← overwrite_before _ _ _ _ (by rw [be16_length]; exact hfit), be16_length]
    have hfit2 : r.buffer.len + (be16 (UInt16.ofNat body.length) ++ body).length ≤ r.buffer.capacity := by
      rw [List.length_append, be16_length]; omega
    have hgle : (g.ext (r.buffer.len + 2) body).le (g.ext r.buffer.len (be16 (UInt16.ofNat body.length) ++ body)) := by
      intro i x hx
      rw [← Mem.ext_ext, be16_length]
      unfold Mem.ext at hx ⊢
      split at hx
      · rename_i hc; rw [if_pos hc]; exact hx
      · rename_i hc
        rw [if_neg hc]
        have : ¬ r.buffer.len ≤ i := by
          intro hi
          rw [Mem.none_of_le hr.mem (by rw [hl]; exact hi)] at hx
          simp at hx
        rw [if_neg (by omega)]; exact hx
    have hmem : (g.ext r.buffer.len (be16 (UInt16.ofNat body.length) ++ body)).le
        (memOf (r.buffer.append (be16 (UInt16.ofNat body.length) ++ body)).contents) := by
      rw [OutBuf.append_contents hfit2, ← hl]
      exact Mem.ext_le hr.mem _
    refine ⟨_, rfl, ⟨hfit2, hbuf, ?_⟩, (e3.le hgle).same rfl rfl⟩
    rw [hbuf]
    refine RInv.le (RInv.setBuffer e2.inv ?_ (Mem.le_trans hgle hmem)) hgle hmem
    show (r.buffer.append _).len ≤ (r.buffer.append _).capacity
    rw [OutBuf.append_capacity hfit2]; exact hfit2
  · unfold RRset.rdata_to_wire
    rw [St.get_bind]
    simp only [Render.skip]
    by_cases hs : r.buffer.len + 2 < r.buffer.capacity
    · rw [St.bind_ok (hsk r hs)]
      have := h.err { r with buffer := { r.buffer with len := r.buffer.len + 2 } } g d (hinv r g hr hs) (hd.same rfl rfl)
        (fun y hy hfit => by
          have hfit : r.buffer.len + 2 + y.room ≤ r.buffer.capacity := hfit
          refine hno _ (Option.map_eq_some_iff.mpr ⟨y, hy, rfl⟩) ?_
          simp only
          omega)
      generalize hw : rd.to_wire { r with buffer := { r.buffer with len := r.buffer.len + 2 } } = x at this
      obtain ⟨y, s⟩ := x
      simp only at this
      subst this
      rw [St.bind_err hw]
    · have : Render.onBuffer (OutBuf.skip 2) r = (.err, r) := by
        rw [Render.onBuffer_apply]; unfold OutBuf.skip; rw [if_neg hs]
      rw [St.bind_err this]

/-! ## records and messages -/

theorem tracks_owner {s : RRset} (hn : s.name.WF) {w : St Render Unit} {e : Seek} (h : Tracks w e) :
    Tracks (Render.write_name s.name true >>= fun _ => Render.write_u16 s.typ.as_u16 >>= fun _ =>
      Render.write_u16 s.class_.to_u16 >>= fun _ => Render.write_u32 s.ttl >>= fun _ => w) (Seek.seq (Seek.owner s) e) := by
  have := (Tracks.name hn).seq ((Tracks.u16 s.typ.as_u16).seq ((Tracks.u16 s.class_.to_u16).seq ((Tracks.u32 s.ttl).seq h)))
  unfold Seek.owner
  rw [← Seek.seq_octets, ← Seek.seq_octets, Seek.seq_assoc, Seek.seq_assoc, Seek.seq_assoc]
  exact this

theorem tracks_rrs {s : RRset} (hn : s.name.WF) (rds : List RData) (h : ∀ rd ∈ rds, rd.Typed) :
    Tracks (s.rrs_to_wire rds) (Seek.all (rds.map fun rd => Seek.seq (Seek.owner s) (Seek.measured (Seek.data rd)))) := by
  induction rds with
  | nil => exact Tracks.nil
  | cons rd rds ih =>
    exact (tracks_owner hn (tracks_rdlen (tracks_rdata (h rd (by simp))))).seq (ih fun x hx => h x (by simp [hx]))

theorem tracks_rrset {s : RRset} (h : s.Typed) : Tracks s.to_wire (Seek.set s) := by
  unfold RRset.to_wire Seek.set
  split
  · exact tracks_owner h.1 (Tracks.u16 0)
  · exact tracks_rrs h.1 _ h.2

theorem tracks_sets (sets : List RRset) (h : ∀ s ∈ sets, s.Typed) : Tracks (Section.toLoop sets) (Seek.all (sets.map Seek.set)) := by
  induction sets with
  | nil => exact Tracks.nil
  | cons s sets ih => exact (tracks_rrset (h s (by simp))).seq (ih fun x hx => h x (by simp [hx]))

theorem tracks_section {s : Section} (h : ∀ sets, s = some sets → ∀ x ∈ sets, x.Typed) : Tracks (Section.to_wire s) (Seek.section s) := by
  match s with
  | none => exact Tracks.nil
  | some sets => exact tracks_sets sets (h sets rfl)

theorem tracks_header (h : Header) : Tracks h.to_wire (Seek.header h) := by
  have := (Tracks.u16 h.id).seq ((Tracks.u16 h.header_flag).seq ((Tracks.u16 h.qd_count).seq ((Tracks.u16 h.an_count).seq
    ((Tracks.u16 h.ns_count).seq (Tracks.u16 h.ar_count)))))
  simp only [Seek.seq_octets] at this
  unfold Seek.header
  simp only [List.append_assoc]
  exact this

theorem tracks_question {q : Question} (h : q.name.WF) : Tracks q.to_wire (Seek.question q) := by
  have := (Tracks.name h).seq ((Tracks.u16 q.typ.as_u16).seq (Tracks.u16 q.class_.to_u16))
  rw [Seek.seq_octets] at this
  exact this

theorem tracks_body {m : Response} (hm : m.Typed) : Tracks m.body (Seek.body m) :=
  (tracks_section fun sets h => hm.sections .Answer sets h).seq
    ((tracks_section fun sets h => hm.sections .Authority sets h).seq (tracks_section fun sets h => hm.sections .Additional sets h))

theorem tracks_head {m : Response} (hm : m.Typed) : Tracks (m.header.to_wire >>= fun _ => m.question.to_wire) (Seek.head m) :=
  (tracks_header m.header).seq (tracks_question hm.question)

/-- header, question and records with room for all of them -/
theorem written_run {m : Response} (hm : m.Typed) (backing : List UInt8) {x : Written} (hx : m.written = some x) (hfit : x.room ≤ backing.length) :
    ∃ r, m.to_wire (Render.new backing) = (.ok x.octets.length, r) ∧ r.data = x.octets ∧
      (m.header.to_wire >>= fun _ => m.question.to_wire >>= fun _ => m.body) (Render.new backing) = (.ok (), r) := by
  have hcap : (Render.new backing).buffer.capacity = backing.length := by simp [Render.new, OutBuf.new, OutBuf.capacity]
  have hdat : (Render.new backing).data = [] := by simp [Render.data, OutBuf.contents, Render.new, OutBuf.new]
  have hl0 : (Render.new backing).buffer.len = 0 := rfl
  have hf := (tracks_header m.header).seq ((tracks_question hm.question).seq (tracks_body hm))
  rw [← Seek.seq_assoc] at hf
  obtain ⟨r, a1, a2, a3⟩ := hf.ok (Render.new backing) Mem.none [] (RInv.new _ _ fun _ => rfl) (DictOK.new _ _).toDictHas x (by rw [hl0]; exact hx)
    (by rw [hl0, hcap]; omega)
  have hd : r.data = x.octets := by rw [a2.data, hdat, List.nil_append]
  refine ⟨r, ?_, hd, a1⟩
  obtain ⟨_, r1, b1, b2⟩ := St.bind_ok_inv a1
  obtain ⟨_, r2, c1, c2⟩ := St.bind_ok_inv b2
  rw [Response.to_wire_eq m _ _ _ _ b1 c1 c2]
  have : r.len = r.data.length := (OutBuf.contents_length a2.inv.buf).symm
  rw [this, hd]

theorem written_ok {m : Response} (hm : m.Typed) (backing : List UInt8) {x : Written} (hx : m.written = some x) (hfit : x.room ≤ backing.length) :
    ∃ r, m.to_wire (Render.new backing) = (.ok x.octets.length, r) ∧ r.data = x.octets :=
  (written_run hm backing hx hfit).imp fun _ h => ⟨h.1, h.2.1⟩

/-- header and question are the first of their kind, so never refused -/
theorem seekLabels_nil (pos : Nat) (ls : List Label) : ∃ d, seekLabels [] pos ls = some (nameWire ls, d) := by
  rw [seekLabels_spell (ls.length + 1) [] pos ls (by intros; rfl) (Or.inr rfl), if_neg (by omega)]
  exact ⟨_, rfl⟩

theorem seekHead {m : Response} (hm : m.Typed) : ∃ d, Seek.head m [] 0 = some
    ⟨m.header.octets ++ (m.question.name.raw ++ (be16 m.question.typ.as_u16 ++ be16 m.question.class_.to_u16)), d, m.headSize⟩ := by
  obtain ⟨ls, hv, hq⟩ := hm.question
  have hraw : m.question.name.raw = nameWire ls := by rw [hq, Name.ofLabels_raw, nameWire_eq]
  obtain ⟨d, hd⟩ := seekLabels_nil (0 + m.header.octets.length) ls
  refine ⟨d, Seek.seq_some.mpr ⟨⟨m.header.octets, [], m.header.octets.length⟩, ⟨m.question.name.raw ++ (be16 m.question.typ.as_u16 ++ be16 m.question.class_.to_u16), d,
    m.question.name.raw.length + 4⟩, ?_, ?_, ?_⟩⟩
  · unfold Seek.header Seek.octets
    simp [Header.octets]
  · refine Seek.seq_some.mpr ⟨⟨nameWire ls, d, (nameWire ls).length⟩, ⟨be16 m.question.typ.as_u16 ++ be16 m.question.class_.to_u16, d, 4⟩, ?_, ?_, ?_⟩
    · unfold Seek.name
      rw [hq, labels_ofLabels hv, hd]; rfl
    · unfold Seek.octets
      simp [be16_length]
    · rw [hraw]
      simp only [Written.mk.injEq, true_and]
      omega
  · simp only [Written.mk.injEq, true_and, Response.headSize, Header.octets_length]
    omega

/-- header and question fit, and a name of the records is refused or the records do not fit -/
theorem written_cut {m : Response} (hm : m.Typed) (backing : List UInt8) (hlo : m.headSize ≤ backing.length)
    (hno : ∀ x, m.written = some x → ¬ x.room ≤ backing.length) (hp : (m.to_wire (Render.new backing)).1 ≠ .panic) :
    ∃ r, m.to_wire (Render.new backing) = (.ok m.headSize, r) ∧
      r.data = m.header.truncated.octets ++ (m.question.name.raw ++ (be16 m.question.typ.as_u16 ++ be16 m.question.class_.to_u16)) := by
  have hcap : (Render.new backing).buffer.capacity = backing.length := by simp [Render.new, OutBuf.new, OutBuf.capacity]
  have hdat : (Render.new backing).data = [] := by simp [Render.data, OutBuf.contents, Render.new, OutBuf.new]
  have hl0 : (Render.new backing).buffer.len = 0 := rfl
  obtain ⟨d2, hh⟩ := seekHead hm
  obtain ⟨r2, a1, a2, a3⟩ := (tracks_head hm).ok (Render.new backing) Mem.none [] (RInv.new _ _ fun _ => rfl) (DictOK.new _ _).toDictHas _ (by rw [hl0]; exact hh)
    (by rw [hl0, hcap]; simp only; omega)
  simp only at a2 a3
  have hd2 := a2.data
  rw [hdat, List.nil_append] at hd2
  have hhl : (m.header.octets ++ (m.question.name.raw ++ (be16 m.question.typ.as_u16 ++ be16 m.question.class_.to_u16))).length = m.headSize := by
    simp only [List.length_append, be16_length, Response.headSize, Header.octets_length]
  have hl2 : r2.buffer.len = m.headSize := by rw [a2.len, hl0, hhl]; omega
  have hc2 : r2.buffer.capacity = backing.length := by rw [a2.cap, hcap]
  have hrun : m.to_wire (Render.new backing) = m.sectionsLoop m.headSize [m.answer, m.authority, m.additional] r2 := by
    obtain ⟨_, r1, b1, b2⟩ := St.bind_ok_inv a1
    unfold Response.to_wire
    rw [St.bind_ok b1, St.bind_ok b2, St.get_bind]
    show m.sectionsLoop r2.buffer.len _ r2 = _
    rw [hl2]
  have herr := (tracks_body hm).err r2 _ d2 a2.inv a3 (fun y hy hfit => by
    rw [hl2] at hy
    refine hno _ (Seek.seq_some.mpr ⟨_, y, hh, by simp only [hhl, Nat.zero_add]; exact hy, rfl⟩) ?_
    simp only [hhl]
    omega)
  generalize hb : m.body r2 = x at herr
  obtain ⟨y, r3⟩ := x
  simp only at herr
  subst herr
  rw [hrun, sectionsLoop_eq, hb] at hp ⊢
  simp only at hp ⊢
  rcases total_body hm r2 _ a2.inv with ⟨_, out, f1, _⟩ | ⟨r3', f1, f2⟩
  · rw [hb] at f1; simp at f1
  rw [hb] at f1
  simp only [Prod.mk.injEq, true_and] at f1
  subst f1
  obtain ⟨dx, hdx⟩ := f2.data
  obtain ⟨g', _, hi3⟩ := f2.inv
  have hsp := truncate_spec m hi3.buf (m.question.name.raw ++ (be16 m.question.typ.as_u16 ++ be16 m.question.class_.to_u16)) dx (by rw [hdx, hd2, List.append_assoc])
  have hql : 12 + (m.question.name.raw ++ (be16 m.question.typ.as_u16 ++ be16 m.question.class_.to_u16)).length = m.headSize := by
    simp only [List.length_append, be16_length, Response.headSize]
  rw [hql] at hsp
  by_cases hd0 : dx = []
  · exfalso
    obtain ⟨r4, t1⟩ := hsp.2 hd0
    have : (do m.truncate m.headSize; pure m.headSize : St Render Nat) r3 = (.panic, r4) := St.bind_panic t1
    rw [this] at hp
    simp at hp
  · obtain ⟨r4, t1, _, _, t4⟩ := hsp.1 hd0
    have : (do m.truncate m.headSize; pure m.headSize : St Render Nat) r3 = (.ok m.headSize, r4) := St.bind_ok t1
    rw [this]
    exact ⟨r4, rfl, t4⟩

/-! ## without collisions this is the reference encoder -/

/-- the same octets and entries, and no more room than that, for names of `S` -/
structure Simple (S : List Label → Prop) (s : Seek) (e : Enc) : Prop where
  keeps : ∀ d p, (∀ x ∈ d, S x.1) → ∀ x ∈ (e d p).2, S x.1
  same : ∀ d p, (∀ x ∈ d, S x.1) → s d p = some ⟨(e d p).1, (e d p).2, (e d p).1.length⟩

theorem seek_lookup {S : List Label → Prop} (hS : NoClash S) {ls : List Label} (hls : S ls) (d : Dict) (hd : ∀ x ∈ d, S x.1) :
    d.seek ls = some (d.lookup ls) := by
  induction d with
  | nil => rfl
  | cons e d ih =>
    obtain ⟨a, p⟩ := e
    have hrec := ih fun x hx => hd x (by simp [hx])
    rw [List.lookup_cons]
    unfold Dict.seek Dict.alike at hrec ⊢
    by_cases h : ls = a
    · subst h
      rw [List.filter_cons_of_pos (by simp), seekIn]
      have := meets_self (nameWire ls) []
      rw [List.append_nil] at this
      simp only [this, BEq.rfl]
    · rw [List.filter_cons_of_neg, hrec]
      · simp [beq_false_of_ne h]
      · simp only [decide_eq_true_eq]
        exact fun hx => h (hS a ls (hd (a, p) (by simp)) hls hx.2 hx.1).symm

theorem seekLabels_simple {S : List Label → Prop} (hS : NoClash S) (ls : List Label) (hls : ∀ i, i < ls.length → S (ls.drop i)) (d : Dict) (p : Nat)
    (hd : ∀ x ∈ d, S x.1) : seekLabels d p ls = some (encLabels Memory.table d p ls) := by
  induction ls generalizing d p with
  | nil => rfl
  | cons l ls ih =>
    have h0 : S (l :: ls) := by simpa using hls 0 (by simp)
    rw [seekLabels, encLabels, seek_lookup hS h0 d hd]
    cases d.lookup (l :: ls) with
    | some q => rfl
    | none =>
      simp only
      rw [ih (fun i hi => by have := hls (i + 1) (by simpa using hi); simpa using this)]
      · rfl
      · split
        · intro x hx
          rcases List.mem_append.mp hx with hx | hx
          · exact hd x hx
          · rw [List.mem_singleton] at hx; subst hx; exact h0
        · exact hd

namespace Simple
variable {S : List Label → Prop}

theorem octets (o : List UInt8) : Simple S (Seek.octets o) (Enc.octets o) := ⟨fun _ _ h => h, fun _ _ _ => rfl⟩

theorem seq {s1 s2 : Seek} {e1 e2 : Enc} (h1 : Simple S s1 e1) (h2 : Simple S s2 e2) : Simple S (Seek.seq s1 s2) (Enc.seq e1 e2) where
  keeps d p h := h2.keeps _ _ (h1.keeps d p h)
  same d p h := by
    unfold Seek.seq Enc.seq
    rw [h1.same d p h]
    simp only [Option.bind_some]
    rw [h2.same _ _ (h1.keeps d p h)]
    simp only [Option.map_some, List.length_append, Option.some.injEq, Written.mk.injEq, true_and]
    omega

theorem all {α : Type} (f : α → Seek) (k : α → Enc) (xs : List α) (h : ∀ x ∈ xs, Simple S (f x) (k x)) : Simple S (Seek.all (xs.map f)) (Enc.all (xs.map k)) := by
  induction xs with
  | nil => exact octets []
  | cons x xs ih => exact seq (h x (by simp)) (ih fun y hy => h y (by simp [hy]))

theorem measured {s : Seek} {e : Enc} (h : Simple S s e) (hp : ∀ d p, 1 ≤ (e d p).1.length) : Simple S (Seek.measured s) (Enc.measured e) where
  keeps d p hd := h.keeps _ _ hd
  same d p hd := by
    unfold Seek.measured Enc.measured
    rw [h.same _ _ hd]
    simp only [Option.map_some, List.length_append, be16_length, Option.some.injEq, Written.mk.injEq, true_and]
    have := hp d (p + 2)
    omega

theorem name (hS : NoClash S) {n : Name} (hn : InS S n) : Simple S (Seek.name n) (Enc.name Memory.table n) := by
  obtain ⟨ls, hv, rfl, hls⟩ := hn
  have hl := labels_ofLabels hv
  refine ⟨fun d p hd => ?_, fun d p hd => ?_⟩
  · unfold Enc.name; rw [hl]; exact encLabels_keeps _ _ _ _ hls hd
  · unfold Seek.name Enc.name
    rw [hl, seekLabels_simple hS ls hls d p hd]; rfl

theorem field (hS : NoClash S) (c : Codec) (v : FieldVal) (hn : v.InS S) : Simple S (seekField c v) (encField Memory.table c v) := by
  cases v <;> cases c <;> first | exact name hS hn | exact octets _

theorem fields (hS : NoClash S) (cs : List (Codec × Disp)) (vs : List FieldVal) (hn : ∀ v ∈ vs, v.InS S) :
    Simple S (Seek.all (List.zipWith (fun c v => seekField c.1 v) cs vs)) (Enc.all (List.zipWith (fun c v => encField Memory.table c.1 v) cs vs)) := by
  induction cs generalizing vs with
  | nil => exact octets []
  | cons c cs ih =>
    cases vs with
    | nil => exact octets []
    | cons v vs => exact seq (field hS c.1 v (hn v (by simp))) (ih vs fun x hx => hn x (by simp [hx]))

theorem data (hS : NoClash S) {rd : RData} (h : rd.Typed) (hn : ∀ v ∈ rd.fields, v.InS S) : Simple S (Seek.data rd) (encData Memory.table rd) := by
  obtain ⟨cs, hs, hf⟩ := h
  rw [seekData_schema hs hf, encData_schema hs hf]
  exact fields hS cs rd.fields hn
end Simple

section
variable {ns : List Name} (hc : ClashFree ns)
include hc

theorem simple_set {s : RRset} (h : s.Typed) (h1 : ∀ rd ∈ s.rdatas, 1 ≤ rd.size) (hm : ∀ n ∈ s.names, n ∈ ns) :
    Simple (TailSet ns) (Seek.set s) (encSet Memory.table s) := by
  have ho : Simple (TailSet ns) (Seek.owner s) (encOwner Memory.table s) :=
    (Simple.name hc.noClash (inS_of_mem h.1 (hm s.name (by simp [RRset.names])))).seq (Simple.octets _)
  unfold Seek.set encSet encSetWith
  split
  · exact ho.seq (Simple.octets _)
  · refine Simple.all _ _ _ fun rd hrd => ho.seq ?_
    have ht := h.2 rd hrd
    refine (Simple.data hc.noClash ht ?_).measured (encData_pos _ ht (h1 rd hrd))
    obtain ⟨cs, _, hf⟩ := ht
    refine fieldsInS_of_mem hf fun n hn => hm n (List.mem_cons_of_mem _ (List.mem_flatMap.mpr ⟨rd, hrd, hn⟩))

theorem simple_section {s : Section} (h : ∀ sets, s = some sets → ∀ x ∈ sets, x.Typed ∧ ∀ rd ∈ x.rdatas, 1 ≤ rd.size)
    (hm : ∀ n ∈ Section.names s, n ∈ ns) : Simple (TailSet ns) (Seek.section s) (encSection Memory.table s) := by
  match s with
  | none => exact Simple.octets []
  | some sets =>
    refine Simple.all _ _ _ fun x hx => simple_set hc (h sets rfl x hx).1 (h sets rfl x hx).2 fun n hn => hm n ?_
    exact List.mem_flatMap.mpr ⟨x, hx, hn⟩

end

theorem written_simple {m : Response} (hm : m.Typed) (h1 : m.NoEmptyData) (hc : ClashFree m.names) :
    ∃ d, m.written = some ⟨m.encodedBy Memory.table, d, (m.encodedBy Memory.table).length⟩ := by
  have hs : ∀ t, (∀ n ∈ Section.names (m.section_ t), n ∈ m.names) → Simple (TailSet m.names) (Seek.section (m.section_ t)) (encSection Memory.table (m.section_ t)) := fun t hn =>
    simple_section hc (fun sets h x hx => ⟨hm.sections t sets h x hx, h1 t sets h x hx⟩) hn
  have hq : Simple (TailSet m.names) (Seek.head m) (encHead Memory.table m) :=
    (Simple.octets _).seq ((Simple.name hc.noClash (inS_of_mem hm.question (by simp [Response.names]))).seq (Simple.octets _))
  have := (hq.seq ((hs .Answer fun n hn => by simp only [Response.section_] at hn; simp [Response.names, hn]).seq
    ((hs .Authority fun n hn => by simp only [Response.section_] at hn; simp [Response.names, hn]).seq
      (hs .Additional fun n hn => by simp only [Response.section_] at hn; simp [Response.names, hn])))).same [] 0 (by simp)
  exact ⟨_, this⟩

end R53
