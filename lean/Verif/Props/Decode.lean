import Verif.Proofs.Decode3
import Verif.Props.Encode
/-!
# C75: the decoder accepts exactly the messages, and C76: what it accepts can be sent again

`MessageAt` and the rest of Spec/Decode.lean say what octets spell a message; they know nothing of the decoder.
-/
namespace R53

/-! ## C75 -/

theorem Exact.iff {α : Type} {rd : St InBuf α} {G : α → Wire} (h : Exact rd G) {msg : List UInt8} {p : Nat} (hp : p ≤ msg.length) (a : α) (e : Nat) :
    rd ⟨msg, p⟩ = (.ok a, ⟨msg, e⟩) ↔ G a msg p e := by
  refine ⟨fun h1 => ?_, h.of hp⟩
  obtain ⟨e', h2, h3⟩ := h.to hp h1
  simp only [InBuf.mk.injEq, true_and] at h3
  subst h3; exact h2

/-- record data of any type and length -/
theorem c75_rdata (t : RRType) (len : UInt16) (msg : List UInt8) (p : Nat) (hp : p ≤ msg.length) (rd : RData) (e : Nat) :
    RData.from_wire t len ⟨msg, p⟩ = (.ok rd, ⟨msg, e⟩) ↔ rd.kind = t ∧ e = p + len.toNat ∧ DataAt rd msg p e :=
  (exact_rdata t len).iff hp rd e

theorem c75_record (msg : List UInt8) (p : Nat) (hp : p ≤ msg.length) (s : RRset) (e : Nat) :
    RRset.from_wire ⟨msg, p⟩ = (.ok s, ⟨msg, e⟩) ↔ RecordAt s msg p e := exact_record.iff hp s e

theorem c75_question (msg : List UInt8) (p : Nat) (hp : p ≤ msg.length) (q : Question) (e : Nat) :
    Question.from_wire ⟨msg, p⟩ = (.ok q, ⟨msg, e⟩) ↔ QuestionAt q msg p e := exact_question.iff hp q e

theorem c75_header (msg : List UInt8) (p : Nat) (hp : p ≤ msg.length) (h : Header) (e : Nat) :
    Header.from_wire ⟨msg, p⟩ = (.ok h, ⟨msg, e⟩) ↔ HeaderAt h msg p e := exact_header.iff hp h e

theorem c75_section (n : UInt16) (t : SectionType) (msg : List UInt8) (p : Nat) (hp : p ≤ msg.length) (s : Section) (e : Nat) :
    Section.from_wire n t ⟨msg, p⟩ = (.ok s, ⟨msg, e⟩) ↔ SectionAt t n.toNat s msg p e := (exact_section n t).iff hp s e

/-- C54, what is tested of OPT records: a section whose records are all legal is accepted if and only if no OPT record is the first one outside the additional
section and none directly follows an OPT record of the same owner; it is refused otherwise -/
theorem c54_exact (n : UInt16) (t : SectionType) (msg : List UInt8) (p e : Nat) (hp : p ≤ msg.length) (first : RRset) (rest : List RRset)
    (hn : n.toNat = rest.length + 1) (h : RecordsAt (first :: rest) msg p e) :
    ((∃ s, Section.from_wire n t ⟨msg, p⟩ = (.ok s, ⟨msg, e⟩)) ↔ (first.typ = .OPT → t = .Additional) ∧ OptApart (first :: rest)) ∧
    (¬ ((first.typ = .OPT → t = .Additional) ∧ OptApart (first :: rest)) → (Section.from_wire n t ⟨msg, p⟩).1 = .err) := by
  have hn0 : n ≠ 0 := by rintro rfl; simp at hn
  have hr : readRRs n.toNat ⟨msg, p⟩ = (.ok (first :: rest), ⟨msg, e⟩) := (exact_records n.toNat).of hp ⟨by simp [hn], h⟩
  have key : (∃ s, Section.from_wire n t ⟨msg, p⟩ = (.ok s, ⟨msg, e⟩)) ↔ (first.typ = .OPT → t = .Additional) ∧ OptApart (first :: rest) := by
    constructor
    · rintro ⟨s, hs⟩
      obtain ⟨f, r, k1, k2, k3⟩ := (section_ok (b := ⟨msg, p⟩) hp hn0).mp ⟨s, hs⟩
      rw [hr] at k1
      simp only [Prod.mk.injEq, Res.ok.injEq, and_true, List.cons.injEq] at k1
      obtain ⟨rfl, rfl⟩ := k1
      exact ⟨k2, k3⟩
    · rintro ⟨h1, h2⟩
      exact (section_ok (b := ⟨msg, p⟩) (t := t) hp hn0).mpr ⟨first, rest, hr, h1, h2⟩
  refine ⟨key, fun hno => ?_⟩
  rcases c43_section_total n t ⟨msg, p⟩ hp with ⟨s, e', h1, -, -⟩ | ⟨p', h1⟩
  · exfalso
    obtain ⟨f, r, k1, k2, k3⟩ := (section_ok (b := ⟨msg, p⟩) hp hn0).mp ⟨s, h1⟩
    rw [hr] at k1
    simp only [Prod.mk.injEq, Res.ok.injEq, List.cons.injEq] at k1
    obtain ⟨⟨rfl, rfl⟩, -⟩ := k1
    exact hno ⟨k2, k3⟩
  · rw [h1]

/-- a message is accepted, as `m`, if and only if its octets spell `m` -/
theorem c75_message (raw : List UInt8) (m : Response) : Response.from_wire raw = .ok m ↔ MessageAt m raw := from_wire_iff raw m

/-- and refused if and only if they spell no message -/
theorem c75_refused (raw : List UInt8) : Response.from_wire raw = .err ↔ ¬ ∃ m, MessageAt m raw := by
  constructor
  · rintro h ⟨m, hm⟩
    rw [(c75_message raw m).mpr hm] at h; simp at h
  · intro h
    rcases c43_response_total raw with h1 | ⟨m, h1, _⟩
    · exact h1
    · exact absurd ⟨m, (c75_message raw m).mp h1⟩ h

/-- octets spell at most one message -/
theorem c75_one_reading (raw : List UInt8) (m m' : Response) (h : MessageAt m raw) (h' : MessageAt m' raw) : m = m' := by
  have h1 := (c75_message raw m).mpr h
  rw [(c75_message raw m').mpr h'] at h1
  simpa using h1.symm

/-- what comes behind the last record does not matter -/
theorem c75_trailing (raw tail : List UInt8) (m : Response) (h : Response.from_wire raw = .ok m) : Response.from_wire (raw ++ tail) = .ok m := by
  rw [c75_message] at h ⊢
  have hoct : ∀ {o : List UInt8} {p e : Nat}, OctetsAt o raw p e → p ≤ raw.length → OctetsAt o (raw ++ tail) p e := by
    rintro o p e ⟨h1, t, h2⟩ hp
    refine ⟨h1, t ++ tail, ?_⟩
    rw [List.drop_append_of_le_length hp, ← h2, List.append_assoc]
  have hget : ∀ {i : Nat} {x : UInt8}, raw[i]? = some x → (raw ++ tail)[i]? = some x := by
    intro i x hx
    rw [List.getElem?_append_left (List.getElem?_eq_some_iff.mp hx).1]; exact hx
  have hdec : ∀ {l p : Nat} {ls : List Label} {e : Nat}, Decodes raw l p ls e → Decodes (raw ++ tail) l p ls e := by
    intro l p ls e hd
    induction hd with
    | root h1 => exact .root (hget h1)
    | @label limit pos e l ls len h1 h2 h3 h4 h5 _ ih =>
      refine .label len (hget h1) h2 h3 h4 ?_ ih
      have hlt := (List.getElem?_eq_some_iff.mp h1).1
      rw [List.drop_append_of_le_length (by omega)]
      have hl : len.toNat ≤ (raw.drop (pos + 1)).length := by
        rw [← h5, List.length_take] at h4; omega
      rw [List.take_append_of_le_length hl]; exact h5
    | pointer hi lo h1 h2 h3 h4 _ ih => exact .pointer hi lo (hget h1) h2 (hget h3) h4 ih
  have hname : ∀ {n : Name} {p e : Nat}, NameAt n raw p e → NameAt n (raw ++ tail) p e := by
    rintro n p e ⟨ls, h1, h2, h3⟩
    exact ⟨ls, hdec h1, h2, h3⟩
  have hfield : ∀ {c : Codec} {v : FieldVal} {p e : Nat}, p ≤ raw.length → FieldAt c v raw p e → FieldAt c v (raw ++ tail) p e := by
    intro c v p e hp hf
    cases v with
    | name n => exact ⟨hf.1, hname hf.2⟩
    | ip o => exact ⟨hf.1, hoct hf.2 hp⟩
    | u8 v => exact ⟨hf.1, hoct hf.2 hp⟩
    | u16 v => exact ⟨hf.1, hoct hf.2 hp⟩
    | u32 v => exact ⟨hf.1, hoct hf.2 hp⟩
    | rrtype t => obtain ⟨a, v, b, c⟩ := hf; exact ⟨a, v, b, hoct c hp⟩
    | text ds => exact ⟨hf.1, hf.2.1, hoct hf.2.2 hp⟩
    | bytes d => exact hf.imp (fun h => ⟨h.1, h.2.1, hoct h.2.2 hp⟩) fun h => ⟨h.1, hoct h.2 hp⟩
  have hfields : ∀ {cs : List (Codec × Disp)} {vs : List FieldVal} {p e : Nat}, p ≤ raw.length → FieldsAt cs vs raw p e → FieldsAt cs vs (raw ++ tail) p e := by
    intro cs
    induction cs with
    | nil => intro vs p e _ hf; cases vs <;> exact hf
    | cons c cs ih =>
      intro vs p e hp hf
      cases vs with
      | nil => exact hf
      | cons v vs =>
        obtain ⟨q, h1, h2⟩ := hf
        exact ⟨q, hfield hp h1, ih (h1.inside hp).2 h2⟩
  have hdata : ∀ {rd : RData} {p e : Nat}, p ≤ raw.length → DataAt rd raw p e → DataAt rd (raw ++ tail) p e := by
    rintro rd p e hp ⟨fs, h1, h2⟩
    obtain ⟨cs, hs, _⟩ := layout_shape h1
    exact (fieldsAt_layout hs _ _ _ _).mp (hfields hp ((fieldsAt_layout hs _ _ _ _).mpr ⟨fs, h1, h2⟩))
  have hrec : ∀ {s : RRset} {p e : Nat}, p ≤ raw.length → RecordAt s raw p e → RecordAt s (raw ++ tail) p e := by
    intro s p e hp hs
    have hi := exact_record.inside hp hs
    obtain ⟨q, t, c, len, h1, h2, h3, h4, rfl, h5⟩ := hs
    have hq := (exact_name.inside hp h1).2
    refine ⟨q, t, c, len, hname h1, hoct h2 hq, h3, h4, rfl, h5.imp id ?_⟩
    rintro ⟨h6, rd, h7, h8, h9⟩
    exact ⟨h6, rd, h7, h8, hdata (by omega) h9⟩
  have hrecs : ∀ {l : List RRset} {p e : Nat}, p ≤ raw.length → RecordsAt l raw p e → RecordsAt l (raw ++ tail) p e := by
    intro l
    induction l with
    | nil => intro p e _ h; exact h
    | cons s l ih =>
      rintro p e hp ⟨q, h1, h2⟩
      exact ⟨q, hrec hp h1, ih (exact_record.inside hp h1).2 h2⟩
  have hsec : ∀ {t : SectionType} {n : Nat} {s : Section} {p e : Nat}, p ≤ raw.length → SectionAt t n s raw p e → SectionAt t n s (raw ++ tail) p e := by
    intro t n s p e hp hs
    refine hs.imp id ?_
    rintro ⟨f, r, sets, h1, h2, h3⟩
    exact ⟨f, r, sets, h1, hrecs hp h2, h3⟩
  obtain ⟨p1, p2, p3, e, ⟨w, h0, h0'⟩, h1, ⟨q, t, c, h2, h2', h2''⟩, h3, h4, h5⟩ := h
  have l0 : (12 : Nat) ≤ raw.length := (OctetsAt.inside (Nat.zero_le _) h0).2
  have l1 := (exact_name.inside l0 h2).2
  have l2 := (OctetsAt.inside l1 h2').2
  have l3 := ((exact_section _ _).inside l2 h3).2
  have l4 := ((exact_section _ _).inside l3 h4).2
  exact ⟨p1, p2, p3, e, ⟨w, hoct h0 (Nat.zero_le _), h0'⟩, h1, ⟨q, t, c, hname h2, hoct h2' l1, h2''⟩, hsec l2 h3, hsec l3 h4, hsec l4 h5⟩

/-- requests: header and question, no answers announced; the octets behind the question are not looked at -/
theorem c75_request (raw : List UInt8) (q : Request) : Request.from_wire raw = .ok q ↔
    ∃ e, HeaderAt q.header raw 0 12 ∧ q.header.qd_count = 1 ∧ QuestionAt q.question raw 12 e ∧ q.header.an_count = 0 := by
  have hex : Exact Request.read fun q msg p e => ∃ p0, HeaderAt q.header msg p p0 ∧ q.header.qd_count = 1 ∧ QuestionAt q.question msg p0 e ∧
      q.header.an_count = 0 := by
    unfold Request.read
    refine (exact_header.bind fun h => Exact.ite (c := h.qd_count = 1) (fun _ => exact_question.bind fun x => Exact.ite (c := h.an_count ≠ 0) (fun _ => Exact.fail)
      fun _ => Exact.ite (c := h.an_count ≠ 0) (fun _ => Exact.fail) fun _ => Exact.pure (⟨h, x⟩ : Request)) fun _ => Exact.fail).congr ?_
    rintro ⟨h, x⟩ msg p e hp
    constructor
    · rintro ⟨h', p0, h0, ⟨h1, x', p1, h2, ⟨_, h3⟩ | ⟨h3, ⟨_, h4⟩ | ⟨_, h4, rfl⟩⟩⟩ | ⟨_, h1⟩⟩
      · exact h3.elim
      · exact h4.elim
      · simp only [Request.mk.injEq] at h4
        obtain ⟨rfl, rfl⟩ := h4
        exact ⟨p0, h0, h1, h2, Classical.not_not.mp h3⟩
      · exact h1.elim
    · rintro ⟨p0, h0, h1, h2, h3⟩
      exact ⟨h, p0, h0, Or.inl ⟨h1, x, e, h2, Or.inr ⟨Classical.not_not.mpr h3, Or.inr ⟨Classical.not_not.mpr h3, rfl, rfl⟩⟩⟩⟩
  constructor
  · intro h
    have h' : (Request.read ⟨raw, 0⟩).1 = .ok q := h
    obtain ⟨e, ⟨p0, h0, h1⟩, _⟩ := hex.to (msg := raw) (p := 0) (Nat.zero_le _) (Prod.ext h' rfl)
    obtain rfl : p0 = 12 := by have := header_len h0; omega
    exact ⟨e, h0, h1⟩
  · rintro ⟨e, h⟩
    have := hex.of (msg := raw) (p := 0) (Nat.zero_le _) ⟨12, h⟩
    show (Request.read ⟨raw, 0⟩).1 = .ok q
    rw [this]

/-! a message: question `a. MX`, an MX record with owner and exchange as pointers, then stray octets -/

def spelledOctets : List UInt8 := [0, 7, 0x85, 0x80, 0, 1, 0, 1, 0, 0, 0, 0, 1, 97, 0, 0, 15, 0, 1,
  192, 12, 0, 15, 0, 1, 0, 0, 0, 60, 0, 6, 0, 10, 1, 98, 192, 12, 99, 99]
def spelledMsg : Response :=
  ⟨⟨7, 0x8580, .Query, .NoError, 1, 1, 0, 0⟩, ⟨Name.ofLabels [[97]], .MX, .IN⟩,
    some [⟨Name.ofLabels [[97]], .MX, .IN, 60, [⟨.MX, [.u16 10, .name (Name.ofLabels [[98], [97]])]⟩]⟩], none, none⟩

theorem spelledMsg_at : MessageAt spelledMsg spelledOctets := by
  have hoct : ∀ {o : List UInt8} {p e : Nat}, (e = p + o.length ∧ o <+: spelledOctets.drop p) → OctetsAt o spelledOctets p e := fun h => h
  have hname : ∀ l, Decodes spelledOctets l 12 [[97]] 15 := fun l => .label 1 rfl (by decide) (by decide) rfl (by decide) (.root rfl)
  have hptr : NameAt (Name.ofLabels [[97]]) spelledOctets 19 21 :=
    ⟨[[97]], .pointer 192 12 rfl (by decide) rfl (by decide) (hname _), by decide, rfl⟩
  have hmx : NameAt (Name.ofLabels [[98], [97]]) spelledOctets 33 37 :=
    ⟨[[98], [97]], .label 1 rfl (by decide) (by decide) rfl (by decide) (.pointer 192 12 rfl (by decide) rfl (by decide) (hname _)), by decide, rfl⟩
  have hrec : RecordAt ⟨Name.ofLabels [[97]], .MX, .IN, 60, [⟨.MX, [.u16 10, .name (Name.ofLabels [[98], [97]])]⟩]⟩ spelledOctets 19 37 :=
    ⟨21, 15, 1, 6, hptr, hoct (by decide), rfl, rfl, rfl, Or.inr ⟨by decide, _, rfl, rfl, _, rfl, 33, hoct (by decide), 37, hmx, rfl⟩⟩
  refine ⟨19, 37, 37, 37, ⟨0x8580, hoct (by decide), rfl, rfl, rfl⟩, rfl,
    ⟨15, 15, 1, ⟨_, hname _, by decide, rfl⟩, hoct (by decide), rfl, rfl⟩, ?_, Or.inl ⟨rfl, rfl, rfl⟩, Or.inl ⟨rfl, rfl, rfl⟩⟩
  exact Or.inr ⟨_, [], _, rfl, ⟨37, hrec, rfl⟩, ⟨⟨[[_]], rfl, .cons (Merges.single _) .nil⟩, trivial⟩, rfl, by decide, trivial⟩

example : Response.from_wire spelledOctets = .ok spelledMsg := (c75_message _ _).mpr spelledMsg_at
/-- a message needs a header and a question: fewer than seventeen octets spell none -/
theorem c75_short (raw : List UInt8) (h : raw.length < 17) : Response.from_wire raw = .err := by
  rw [c75_refused]
  rintro ⟨m, p1, p2, p3, e, h0, _, h2, _⟩
  have l0 := (exact_header.inside (Nat.zero_le _) h0).2
  have l1 := (exact_question.inside l0 h2).2
  obtain ⟨q, t, c, hq, h3, _⟩ := h2
  have hf : FieldAt .name (.name m.question.name) raw 12 q := ⟨rfl, hq⟩
  have := h3.1
  have l2 : 12 < q := by
    rcases safe_name ⟨raw, 12⟩ l0 with ⟨a, e', k1, _, _, _, k2⟩ | ⟨b', k1, _⟩
    · rw [exact_name.of l0 hq] at k1
      simp only [Prod.mk.injEq, Res.ok.injEq, InBuf.mk.injEq] at k1
      obtain ⟨_, _, rfl⟩ := k1
      exact k2.2.1
    · rw [exact_name.of l0 hq] at k1; simp at k1
  simp only [List.length_append, be16_length] at this
  omega

/-! ## C76 -/

theorem le_sum_of_mem {x : Nat} {l : List Nat} (h : x ∈ l) : x ≤ l.sum := by
  induction l with
  | nil => simp at h
  | cons a l ih =>
    rw [List.sum_cons]
    rcases List.mem_cons.mp h with rfl | h
    · omega
    · have := ih h; omega

theorem Response.rdata_le_size (m : Response) : ∀ t sets, m.section_ t = some sets → ∀ x ∈ sets, ∀ rd ∈ x.rdatas, rd.size ≤ m.size := by
  intro t sets hs x hx rd hrd
  have h1 : rd.size ≤ x.size := by
    unfold RRset.size
    rw [if_neg (by intro h; rw [h] at hrd; simp at hrd)]
    have := le_sum_of_mem (x := x.name.raw.length + 10 + rd.size) (l := x.rdatas.map fun rd => x.name.raw.length + 10 + rd.size)
      (List.mem_map.mpr ⟨rd, hrd, rfl⟩)
    omega
  have h2 : x.size ≤ Section.size (some sets) := le_sum_of_mem (List.mem_map.mpr ⟨x, hx, rfl⟩)
  unfold Response.size
  cases t <;> simp only [Response.section_] at hs <;> rw [hs] <;> omega

/-- the decoder makes only messages that fit the wire again, in buffers that hold a DNS message (65535 octets) -/
theorem c76_fits (raw : List UInt8) (m : Response) (h : Response.from_wire raw = .ok m) (L : Nat) (hL : L ≤ 65535) : m.FitsIn L :=
  ((c75_message raw m).mp h).fitsIn (Or.inl hL)

/-- a message that was received and is sent on in any buffer up to the maximal size of a DNS message arrives as it was, or cut
with the TC flag -/
theorem c76_forward (raw : List UInt8) (m : Response) (h : Response.from_wire raw = .ok m)
    (backing : List UInt8) (hL : backing.length ≤ 65535) (n : Nat) (r : Render) (hw : m.to_wire (Render.new backing) = (.ok n, r)) :
    Response.from_wire r.data = .ok m ∨ Response.from_wire r.data = .ok m.cut := by
  obtain ⟨_, _, h1 | h1⟩ := c44_roundtrip m backing (c76_fits raw m h _ hL) n r hw
  · left; have := h1 []; rwa [List.append_nil] at this
  · right; have := h1 []; rwa [List.append_nil] at this

/-- in any buffer, if the message has at most 65535 octets without compression or came in at most 65000 -/
theorem c76_fits_partial (raw : List UInt8) (m : Response) (h : Response.from_wire raw = .ok m) (hlen : m.size ≤ 65535 ∨ raw.length ≤ 65000) : m.Fits := by
  rcases hlen with hlen | hlen
  · exact (c76_fits raw m h 0 (by omega)).fits (Or.inr fun t sets hs x hx rd hrd => by
      have := m.rdata_le_size t sets hs x hx rd hrd; omega)
  · exact ((c75_message raw m).mp h).fits hlen

theorem c76_forward_partial (raw : List UInt8) (m : Response) (h : Response.from_wire raw = .ok m) (hlen : m.size ≤ 65535 ∨ raw.length ≤ 65000)
    (backing : List UInt8) (n : Nat) (r : Render) (hw : m.to_wire (Render.new backing) = (.ok n, r)) :
    Response.from_wire r.data = .ok m ∨ Response.from_wire r.data = .ok m.cut := by
  obtain ⟨_, _, h1 | h1⟩ := c44_roundtrip m backing ((c76_fits_partial raw m h hlen).fitsIn _) n r hw
  · left; have := h1 []; rwa [List.append_nil] at this
  · right; have := h1 []; rwa [List.append_nil] at this

/-- as it was, if the buffer can hold it with its names written out and none of them collide -/
theorem c76_whole_partial (raw : List UInt8) (m : Response) (h : Response.from_wire raw = .ok m) (hlen : m.size ≤ 65535 ∨ raw.length ≤ 65000)
    (hc : ClashFree m.names) (backing : List UInt8) (hfit : m.size ≤ backing.length) :
    ∃ n r, m.to_wire (Render.new backing) = (.ok n, r) ∧ Response.from_wire r.data = .ok m := by
  obtain ⟨n, r, h1, _, _, h4⟩ := c44_whole_partial m (c76_fits_partial raw m h hlen) hc backing hfit
  exact ⟨n, r, h1, by have := h4 []; rwa [List.append_nil] at this⟩

/-- any octets that are accepted say the same as the textbook encoding of what they were accepted as -/
theorem c76_normal_form_partial (raw : List UInt8) (m : Response) (h : Response.from_wire raw = .ok m) (hlen : m.size ≤ 65535 ∨ raw.length ≤ 65000) :
    MessageAt m m.encoded := by
  have := (c73_decodes .all m (c76_fits_partial raw m h hlen) []).2
  rwa [List.append_nil, c75_message] at this

/-- the messages that fit the wire are made by the decoder -/
theorem c76_image (m : Response) (hm : m.Fits) : ∃ raw, Response.from_wire raw = .ok m :=
  ⟨m.encoded ++ [], (c73_decodes .all m hm []).2⟩

/-- the same message, if the buffer is large enough: false, names of equal length and hash are confused -/
theorem c76_collision_violated : ∃ raw m n r, Response.from_wire raw = .ok m ∧ m.size ≤ 134 ∧ m.to_wire (Render.new (List.replicate 512 0)) = (.ok n, r) ∧
    Response.from_wire r.data = .ok m.cut ∧ m.cut ≠ m := by
  obtain ⟨h1, h2, n, r, h3, h4⟩ := c44_collision_violated
  obtain ⟨raw, h5⟩ := c76_image clashMsg h1
  exact ⟨raw, clashMsg, n, r, h5, h2, h3, h4, by decide +kernel⟩

example : spelledMsg.Fits := c76_fits_partial spelledOctets spelledMsg ((c75_message _ _).mpr spelledMsg_at) (Or.inr (by decide))
example : ClashFree spelledMsg.names ∧ Roomy spelledMsg.dictionary := by decide +kernel
/-- sent on, the message loses the stray octets -/
example : spelledMsg.encoded = spelledOctets.take 37 := by decide +kernel

end R53
