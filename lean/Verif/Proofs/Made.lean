import Verif.Proofs.Straight
import Verif.Props.Seek
/-!
# Writing a message is a history of the renderer

`Made w ns`: `w` takes a renderer with a history to a renderer with a history; when it succeeds, the names `ns` were written, in this order.
-/
namespace R53
open Name (ofLabels)

def Made (w : St Render Unit) (ns : List Name) : Prop := ∀ {backing : List UInt8} {h : Hist}, Reached backing h →
  ∃ h', Reached backing h' ∧ h'.r = (w h.r).2 ∧ (∀ i, h.hole i = true → h'.hole i = true) ∧
    ((w h.r).1 = .ok () → ∃ new, h'.log = new ++ h.log ∧ new.reverse.map (·.2.1) = ns)

namespace Made

theorem nil : Made (Pure.pure ()) [] := fun {_ h} hr => ⟨h, hr, rfl, fun _ h => h, fun _ => ⟨[], rfl, rfl⟩⟩

theorem seq {w1 w2 : St Render Unit} {a b : List Name} (h1 : Made w1 a) (h2 : Made w2 b) : Made (w1 >>= fun _ => w2) (a ++ b) := by
  intro backing h hr
  obtain ⟨h', r1, e1, m1, l1⟩ := h1 hr
  rw [St.bind_apply]
  generalize w1 h.r = x at e1 l1
  obtain ⟨x, s⟩ := x
  simp only at e1 l1
  subst e1
  cases x with
  | ok u =>
    obtain ⟨n1, k1, k2⟩ := l1 rfl
    obtain ⟨h'', r2, e2, m2, l2⟩ := h2 r1
    refine ⟨h'', r2, e2, fun i hi => m2 i (m1 i hi), fun ho => ?_⟩
    obtain ⟨n2, k3, k4⟩ := l2 ho
    exact ⟨n2 ++ n1, by rw [k3, k1, List.append_assoc], by rw [List.reverse_append, List.map_append, k2, k4]⟩
  | err => exact ⟨h', r1, rfl, m1, by simp⟩
  | panic => exact ⟨h', r1, rfl, m1, by simp⟩

theorem congr {w : St Render Unit} {a b : List Name} (h : Made w a) (e : a = b) : Made w b := e ▸ h

/-- an operation of the renderer -/
theorem op (o : ROp) (ha : ∀ h : Hist, h.Allowed o) (ns : List Name) (hn : ∀ h : Hist, (o.step h.r).1 = .ok () → ∃ new, (h.step o).log = new ++ h.log ∧ new.reverse.map (·.2.1) = ns) :
    Made o.step ns := by
  intro backing h hr
  refine ⟨h.step o, hr.step (ha h), ?_, ?_, hn h⟩
  · unfold Hist.step
    generalize o.step h.r = x
    obtain ⟨x, s⟩ := x
    cases x <;> rfl
  · intro i hi
    unfold Hist.step
    generalize o.step h.r = x
    obtain ⟨x, s⟩ := x
    cases x with
    | ok u => cases o <;> simp_all
    | err => exact hi
    | panic => exact hi

theorem plain (o : ROp) (ha : ∀ h : Hist, h.Allowed o) (hn : ∀ n c, o ≠ .name n c) : Made o.step [] := by
  refine op o ha [] fun h _ => ⟨[], ?_, rfl⟩
  unfold Hist.step
  generalize o.step h.r = x
  obtain ⟨x, s⟩ := x
  cases x with
  | ok u => cases o <;> simp_all
  | err => rfl
  | panic => rfl

theorem u8 (v : UInt8) : Made (Render.write_u8 v) [] := plain (.u8 v) (fun _ => trivial) (by simp)
theorem u16 (v : UInt16) : Made (Render.write_u16 v) [] := plain (.u16 v) (fun _ => trivial) (by simp)
theorem u32 (v : UInt32) : Made (Render.write_u32 v) [] := plain (.u32 v) (fun _ => trivial) (by simp)
theorem bytes (v : List UInt8) : Made (Render.write_bytes v) [] := plain (.bytes v) (fun _ => trivial) (by simp)

theorem name {n : Name} (h : n.WF) (c : Bool) : Made (Render.write_name n c) [n] := by
  refine op (.name n c) (fun _ => h) [n] fun h ho => ?_
  unfold Hist.step
  simp only [ROp.step] at ho ⊢
  generalize Render.write_name n c h.r = x at ho
  obtain ⟨x, s⟩ := x
  simp only at ho
  subst ho
  exact ⟨[_], rfl, rfl⟩

theorem octets (o : List UInt8) : Made (Field.octets_to_wire o) [] := by
  induction o with
  | nil => exact nil
  | cons x xs ih => exact seq (u8 x) ih

theorem bytesField (d : List UInt8) : Made (Field.bytes_to_wire d) [] := seq (u8 _) (bytes d)

theorem text (ds : List (List UInt8)) : Made (Field.text_to_wire ds) [] := by
  induction ds with
  | nil => exact nil
  | cons x xs ih => exact seq (bytesField x) ih

theorem field {c : Codec} {v : FieldVal} (hv : FieldTyped c v) : Made (Field.to_wire c v) v.names := by
  cases c <;> cases v <;> simp only [FieldTyped] at hv
  case name.name n => exact name hv true
  case ipv4.ip o => exact octets o
  case ipv6.ip o => exact octets o
  case u8.u8 v => exact u8 v
  case u16.u16 v => exact u16 v
  case u32.u32 v => exact u32 v
  case rrtype.rrtype t => exact u16 _
  case text.text ds => exact text ds
  case byte_binary.bytes d => exact bytesField d
  case binary.bytes d => exact bytes d

theorem fields {cs : List (Codec × Disp)} {vs : List FieldVal} (hv : FieldsTyped cs vs) : Made (Field.allTo cs vs) (vs.flatMap FieldVal.names) := by
  induction cs generalizing vs with
  | nil =>
    cases vs with
    | nil => exact nil
    | cons v vs => exact absurd hv (by simp [FieldsTyped])
  | cons c cs ih =>
    cases vs with
    | nil => exact absurd hv (by simp [FieldsTyped])
    | cons v vs =>
      rw [List.flatMap_cons]
      exact seq (field hv.1) (ih hv.2)

theorem rdata {rd : RData} (h : rd.Typed) : Made rd.to_wire (rd.fields.flatMap FieldVal.names) := by
  obtain ⟨cs, h1, h2⟩ := h
  unfold RData.to_wire
  rw [h1]
  exact fields h2

/-- the two octets of RDLENGTH are skipped and filled in later -/
theorem rdlen {rd : RData} (hd : rd.Typed) : Made (RRset.rdata_to_wire rd) (rd.fields.flatMap FieldVal.names) := by
  intro backing h hr
  unfold RRset.rdata_to_wire
  rw [St.get_bind]
  have hs : h.step (.skip 2) = match Render.skip 2 h.r with
      | (.ok _, r') => ⟨r', fun i => h.hole i || decide (h.r.len ≤ i ∧ i < h.r.len + 2), h.log⟩
      | (_, r') => { h with r := r' } := by
    unfold Hist.step
    simp only [ROp.step]
    generalize Render.skip 2 h.r = x
    obtain ⟨x, s⟩ := x
    cases x <;> rfl
  have hr1 : Reached backing (h.step (.skip 2)) := hr.step trivial
  rw [St.bind_apply]
  generalize Render.skip 2 h.r = x at hs
  obtain ⟨x, r1⟩ := x
  rw [hs] at hr1
  cases x with
  | err => exact ⟨_, hr1, rfl, fun _ h => h, by simp⟩
  | panic => exact ⟨_, hr1, rfl, fun _ h => h, by simp⟩
  | ok u =>
    dsimp only at hr1 ⊢
    obtain ⟨h2, r2, e2, m2, l2⟩ := rdata hd hr1
    dsimp only at e2 m2 l2
    rw [St.bind_apply]
    generalize rd.to_wire r1 = y at e2 l2
    obtain ⟨y, s2⟩ := y
    dsimp only at e2 l2
    have hm : ∀ i, h.hole i = true → h2.hole i = true := fun i hi => m2 i (by simp [hi])
    cases y with
    | err => exact ⟨h2, r2, e2, hm, by simp⟩
    | panic => exact ⟨h2, r2, e2, hm, by simp⟩
    | ok u =>
      obtain ⟨new, k1, k2⟩ := l2 rfl
      dsimp only
      rw [St.get_bind, St.bind_apply]
      cases csub s2.buffer.len h.r.buffer.len with
      | err => exact ⟨h2, r2, e2, hm, fun h => by simp [St.lift] at h⟩
      | panic => exact ⟨h2, r2, e2, hm, fun h => by simp [St.lift] at h⟩
      | ok n =>
        show ∃ h', _
        rw [show (St.lift (Res.ok n) : St Render Nat) s2 = (.ok n, s2) from rfl]
        dsimp only
        rw [St.bind_apply]
        cases csub n 2 with
        | err => exact ⟨h2, r2, e2, hm, fun h => by simp [St.lift] at h⟩
        | panic => exact ⟨h2, r2, e2, hm, fun h => by simp [St.lift] at h⟩
        | ok v =>
          rw [show (St.lift (Res.ok v) : St Render Nat) s2 = (.ok v, s2) from rfl]
          dsimp only
          have ha : h2.Allowed (.u16At h.r.buffer.len (UInt16.ofNat v)) :=
            ⟨m2 _ (by simp [Render.len]), m2 _ (by simp [Render.len])⟩
          have hlog : (h2.step (.u16At h.r.buffer.len (UInt16.ofNat v))).log = h2.log := by
            unfold Hist.step
            split <;> rfl
          have hhole : (h2.step (.u16At h.r.buffer.len (UInt16.ofNat v))).hole = h2.hole := by
            unfold Hist.step
            split <;> rfl
          refine ⟨h2.step (.u16At h.r.buffer.len (UInt16.ofNat v)), r2.step ha, ?_, ?_, fun _ => ⟨new, by rw [hlog, k1], k2⟩⟩
          · rw [← e2]
            unfold Hist.step
            simp only [ROp.step]
            generalize Render.write_u16_at h.r.buffer.len (UInt16.ofNat v) h2.r = z
            obtain ⟨z, s⟩ := z
            cases z <;> rfl
          · rw [hhole]; exact hm

theorem rr {s : RRset} (hn : s.name.WF) {rd : RData} (h : rd.Typed) : Made (s.rr_to_wire rd) ((s.record rd).names) := by
  refine congr (seq (name hn true) (seq (u16 _) (seq (u16 _) (seq (u32 _) (rdlen h))))) ?_
  simp [RRset.names, RRset.record]

theorem rrs {s : RRset} (hn : s.name.WF) (rds : List RData) (h : ∀ rd ∈ rds, rd.Typed) :
    Made (s.rrs_to_wire rds) ((rds.map s.record).flatMap RRset.names) := by
  induction rds with
  | nil => exact nil
  | cons rd rds ih =>
    rw [List.map_cons, List.flatMap_cons]
    exact seq (rr hn (h rd (by simp))) (ih fun x hx => h x (by simp [hx]))

theorem rrset {s : RRset} (h : s.Typed) : Made s.to_wire (s.records.flatMap RRset.names) := by
  unfold RRset.to_wire RRset.records
  by_cases he : s.rdatas = []
  · rw [if_pos he, if_pos he]
    refine congr (seq (name h.1 true) (seq (u16 _) (seq (u16 _) (seq (u32 _) (u16 _))))) ?_
    simp [RRset.names, he]
  · rw [if_neg he, if_neg he]
    exact rrs h.1 _ h.2

theorem sets (xs : List RRset) (h : ∀ s ∈ xs, s.Typed) : Made (Section.toLoop xs) ((xs.flatMap RRset.records).flatMap RRset.names) := by
  induction xs with
  | nil => exact nil
  | cons x xs ih =>
    rw [List.flatMap_cons, List.flatMap_append]
    exact seq (rrset (h x (by simp))) (ih fun y hy => h y (by simp [hy]))

theorem sect {s : Section} (h : ∀ sets, s = some sets → ∀ x ∈ sets, x.Typed) : Made (Section.to_wire s) ((Section.records s).flatMap RRset.names) := by
  cases s with
  | none => exact nil
  | some xs => exact sets xs (h xs rfl)

theorem header (x : Header) : Made x.to_wire [] := seq (u16 _) (seq (u16 _) (seq (u16 _) (seq (u16 _) (seq (u16 _) (u16 _)))))

theorem question {q : Question} (h : q.name.WF) : Made q.to_wire [q.name] := seq (name h true) (seq (u16 _) (u16 _))

theorem message {m : Response} (hm : m.Typed) :
    Made (m.header.to_wire >>= fun _ => m.question.to_wire >>= fun _ => m.body) (m.question.name :: m.records.flatMap RRset.names) := by
  have hb : Made m.body (m.records.flatMap RRset.names) := by
    unfold Response.records
    rw [List.flatMap_append, List.flatMap_append]
    exact seq (sect fun sets h => hm.sections .Answer sets h) (seq (sect fun sets h => hm.sections .Authority sets h) (sect fun sets h => hm.sections .Additional sets h))
  intro _ _ hr
  exact seq (header m.header) (seq (question hm.question) hb) hr

end Made

/-! ## names stand behind each other -/

theorem step_len {h : Hist} (hi : HInv h) {o : ROp} (ha : h.Allowed o) : h.r.buffer.len ≤ (o.step h.r).2.buffer.len := by
  obtain ⟨g, h1, _⟩ := hi.inv
  cases o with
  | name n c =>
    obtain ⟨ls, hv, rfl⟩ := ha
    simp only [ROp.step]
    rcases Render.write_name_spec hv c h1 with ⟨r', out, a1, a2, a3, a4, _⟩ | ⟨r', d, a1, a2, a3, a4, a5⟩
    · rw [a1, a4]; simp [OutBuf.append]
    · rw [a1]; rcases a3 with a3 | a3 <;> rw [a3] <;> simp [OutBuf.append]
  | u8 d => simp only [ROp.step, Render.write_u8, Render.write_u8_r]; split <;> simp [OutBuf.append]
  | u16 d => simp only [ROp.step, Render.write_u16, Render.write_u16_r]; split <;> simp [OutBuf.append]
  | u32 d => simp only [ROp.step, Render.write_u32, Render.write_u32_r]; split <;> simp [OutBuf.append]
  | bytes d => simp only [ROp.step, Render.write_bytes, Render.write_bytes_r]; split <;> simp [OutBuf.append]
  | skip n => simp only [ROp.step, Render.skip, Render.onBuffer_apply, OutBuf.skip]; split <;> simp
  | u8At p d => simp only [ROp.step, Render.write_u8_at]; rw [Render.write_u8_at_r _ _ _ h1.buf]; split <;> simp
  | u16At p d => simp only [ROp.step, Render.write_u16_at]; rw [Render.write_u16_at_r _ _ _ h1.buf]; split <;> simp

/-- a place in the log ends where or before the next one starts -/
def InOrder (a b : Nat × Name × Nat) : Prop := b.2.2 ≤ a.1

theorem Reached.ordered {backing : List UInt8} {h : Hist} (hr : Reached backing h) :
    h.log.Pairwise InOrder ∧ ∀ x ∈ h.log, x.1 ≤ x.2.2 ∧ x.2.2 ≤ h.r.buffer.len := by
  induction hr with
  | new => simp
  | reset => simp
  | @step h o hr ha ih =>
    have hl := step_len hr.hinv ha
    have keep : (h.step o).log = h.log → (h.step o).r = (o.step h.r).2 → (h.step o).log.Pairwise InOrder ∧ ∀ x ∈ (h.step o).log, x.1 ≤ x.2.2 ∧ x.2.2 ≤ (h.step o).r.buffer.len := by
      intro e1 e2
      rw [e1, e2]
      exact ⟨ih.1, fun x hx => ⟨(ih.2 x hx).1, Nat.le_trans (ih.2 x hx).2 hl⟩⟩
    have hrr : (h.step o).r = (o.step h.r).2 := by
      unfold Hist.step
      generalize o.step h.r = z
      obtain ⟨z, s⟩ := z
      cases z <;> rfl
    cases o with
    | name n c =>
      cases hz : Render.write_name n c h.r with
      | mk z s =>
        simp only [ROp.step, hz] at hl
        cases z with
        | ok u =>
          have hs : h.step (.name n c) = ⟨s, h.hole, (h.r.len, n, s.len) :: h.log⟩ := by
            unfold Hist.step; simp only [ROp.step]; rw [hz]
          rw [hs]
          simp only [List.pairwise_cons, List.mem_cons]
          refine ⟨⟨fun x hx => (ih.2 x hx).2, ih.1⟩, ?_⟩
          rintro x (rfl | hx)
          · exact ⟨hl, Nat.le_refl _⟩
          · exact ⟨(ih.2 x hx).1, Nat.le_trans (ih.2 x hx).2 hl⟩
        | err => exact keep (by unfold Hist.step; simp only [ROp.step]; rw [hz]) hrr
        | panic => exact keep (by unfold Hist.step; simp only [ROp.step]; rw [hz]) hrr
    | _ =>
      refine keep ?_ hrr
      unfold Hist.step
      split <;> rfl

end R53
