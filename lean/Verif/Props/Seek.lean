import Verif.Proofs.Seek2
import Verif.Props.Encode
import Verif.Props.Decode
/-!
# C73, C44, C76 for all names

`Response.written` (Spec/Seek.lean) is the reference encoder whose names are searched as the renderer searches them: it may refuse
a message. Nothing is assumed of the names here.
-/
namespace R53

/-- all that can happen to a message of any names, in a buffer of any size -/
theorem c73_exact (m : Response) (hm : m.Typed) (backing : List UInt8) :
    (∀ x, m.written = some x → x.room ≤ backing.length →
      ∃ r, m.to_wire (Render.new backing) = (.ok x.octets.length, r) ∧ r.data = x.octets) ∧
    ((∀ x, m.written = some x → backing.length < x.room) → m.headSize + m.firstPiece .table ≤ backing.length →
      ∃ r, m.to_wire (Render.new backing) = (.ok m.headSize, r) ∧ r.data = m.cut.encodedBy .table) ∧
    (m.records ≠ [] → m.headSize ≤ backing.length → backing.length < m.headSize + m.firstPiece .table →
      (m.to_wire (Render.new backing)).1 = .panic) ∧
    (backing.length < m.headSize → (m.to_wire (Render.new backing)).1 = .err) := by
  refine ⟨fun x hx hr => written_ok hm backing hx hr, fun h1 h2 => ?_, fun h1 h2 h3 => (c46_panic_iff m hm backing).mpr ⟨h1, h2, h3⟩,
    fun h => (c46_err_iff m hm backing).mpr h⟩
  obtain ⟨r, e1, e2⟩ := written_cut hm backing (by omega) (fun x hx hr => by have := h1 x hx; omega) (fun hp => by
    have := (c46_panic_iff m hm backing).mp hp; omega)
  exact ⟨r, e1, e2.trans (cut_encoded _ hm m.header.truncated).symm⟩

/-- a message without records is never refused, and needs the room of header and question -/
theorem written_norecords {m : Response} (hm : m.Typed) (h : m.records = []) :
    ∃ x, m.written = some x ∧ x.room = m.headSize ∧ x.octets.length = m.headSize := by
  obtain ⟨d, hh⟩ := seekHead hm
  have hn : ∀ s : Section, s.getD [] = [] → Seek.section s = Seek.octets [] := by
    intro s hs; unfold Seek.section; rw [hs]; rfl
  have h3 : m.answer.getD [] = [] ∧ m.authority.getD [] = [] ∧ m.additional.getD [] = [] := by
    have hz : ∀ s : Section, Section.records s = [] → s.getD [] = [] := by
      intro s hs
      cases s with
      | none => rfl
      | some sets =>
        cases sets with
        | nil => rfl
        | cons x rest =>
          exfalso
          by_cases hx : x.rdatas = [] <;> simp [Section.records, RRset.records, hx] at hs
    have : Section.records m.answer = [] ∧ Section.records m.authority = [] ∧ Section.records m.additional = [] := by
      simpa [Response.records] using h
    exact ⟨hz _ this.1, hz _ this.2.1, hz _ this.2.2⟩
  refine ⟨_, Seek.seq_some.mpr ⟨_, ⟨[], d, 0⟩, hh, ?_, rfl⟩, ?_, ?_⟩
  · unfold Seek.body
    rw [hn _ h3.1, hn _ h3.2.1, hn _ h3.2.2]
    rfl
  · simp [Response.headSize, Header.octets_length, be16_length]
  · simp [Response.headSize, Header.octets_length, be16_length]

/-- so these are the four outcomes, and they exclude one another -/
theorem c73_cases (m : Response) (hm : m.Typed) (backing : List UInt8) :
    ((m.to_wire (Render.new backing)).1 = .err ↔ backing.length < m.headSize) ∧
    ((m.to_wire (Render.new backing)).1 = .panic ↔
      m.records ≠ [] ∧ m.headSize ≤ backing.length ∧ backing.length < m.headSize + m.firstPiece .table) ∧
    (∀ n r, m.to_wire (Render.new backing) = (.ok n, r) → n = r.data.length ∧
      ((∃ x, m.written = some x ∧ x.room ≤ backing.length ∧ r.data = x.octets) ∨
        ((∀ x, m.written = some x → backing.length < x.room) ∧ m.records ≠ [] ∧ r.data = m.cut.encodedBy .table))) := by
  refine ⟨c46_err_iff m hm backing, c46_panic_iff m hm backing, fun n r h => ?_⟩
  obtain ⟨k1, k2, k3, k4⟩ := c73_exact m hm backing
  by_cases hx : ∃ x, m.written = some x ∧ x.room ≤ backing.length
  · obtain ⟨x, a, b⟩ := hx
    obtain ⟨r', e1, e2⟩ := k1 x a b
    rw [h] at e1
    simp only [Prod.mk.injEq, Res.ok.injEq] at e1
    obtain ⟨rfl, rfl⟩ := e1
    exact ⟨by rw [e2], Or.inl ⟨x, a, b, e2⟩⟩
  · have hno : ∀ x, m.written = some x → backing.length < x.room := fun x a => by
      by_cases c : x.room ≤ backing.length
      · exact absurd ⟨x, a, c⟩ hx
      · omega
    have a1 : ¬ backing.length < m.headSize := fun c => by rw [h] at k4; exact absurd (k4 c) (by simp)
    have hrec : m.records ≠ [] := fun c => by
      obtain ⟨x, d1, d2, _⟩ := written_norecords hm c
      have := hno x d1; omega
    have a2 : ¬ backing.length < m.headSize + m.firstPiece .table := fun c => by
      rw [h] at k3; exact absurd (k3 hrec (by omega) c) (by simp)
    obtain ⟨r', e1, e2⟩ := k2 hno (by omega)
    rw [h] at e1
    simp only [Prod.mk.injEq, Res.ok.injEq] at e1
    obtain ⟨rfl, rfl⟩ := e1
    refine ⟨?_, Or.inr ⟨hno, hrec, e2⟩⟩
    rw [e2]
    show _ = ((⟨m.header.truncated, m.question, none, none, none⟩ : Response).encodedBy .table).length
    rw [cut_encoded _ hm]
    simp only [List.length_append, Header.octets_length, be16_length, Response.headSize]

/-- without collisions and without empty data, no message is refused, and this is the reference encoder -/
theorem c73_no_collision (m : Response) (hm : m.Typed) (hne : m.NoEmptyData) (hc : ClashFree m.names) :
    ∃ d, m.written = some ⟨m.encodedBy .table, d, (m.encodedBy .table).length⟩ := written_simple hm hne hc

/-! ## C44 -/

theorem SectionFitsIn.typed {L : Nat} {t : SectionType} {s : Section} (h : SectionFitsIn L t s) : ∀ sets, s = some sets → ∀ x ∈ sets, x.Typed := by
  rintro sets rfl x hx
  exact ⟨(h.2.1 x hx).name, fun rd hrd => ((h.2.1 x hx).data rd hrd).2.1.typed⟩

theorem Response.FitsIn.typed {L : Nat} {m : Response} (h : m.FitsIn L) : m.Typed :=
  ⟨h.question.1, fun t sets hs => by
    cases t
    · exact h.answer.typed sets hs
    · exact h.authority.typed sets hs
    · exact h.additional.typed sets hs⟩

theorem SectionFitsIn.none_of {L : Nat} {t : SectionType} {s : Section} (h : SectionFitsIn L t s) (h0 : (Section.records s).length = 0) : s = none := by
  cases s with
  | none => rfl
  | some sets =>
    exfalso
    cases sets with
    | nil => exact h.1 rfl
    | cons x rest =>
      by_cases hx : x.rdatas = [] <;> simp [Section.records, RRset.records, hx] at h0

/-- a message with the header of its truncated form is its truncated form -/
theorem cut_of_header {L : Nat} {m : Response} (hm : m.FitsIn L) (h : m.cut.header = m.header) : m.cut = m := by
  have h1 := hm.answer.none_of (by rw [← hm.an, ← h]; rfl)
  have h2 := hm.authority.none_of (by rw [← hm.ns, ← h]; rfl)
  have h3 := hm.additional.none_of (by rw [← hm.ar, ← h]; rfl)
  obtain ⟨a, b, c, d, e⟩ := m
  simp only at h1 h2 h3
  subst h1 h2 h3
  simp only [Response.cut] at h ⊢
  rw [h]

theorem header_of_read {m m' : Response} {L : Nat} (hm : m.FitsIn L) (rest : List UInt8) (h : Response.from_wire (m.header.octets ++ rest) = .ok m') :
    m'.header = m.header := by
  unfold Response.from_wire InBuf.new at h
  obtain ⟨c, hc⟩ : ∃ c, Response.read ⟨m.header.octets ++ rest, 0⟩ = (.ok m', c) := ⟨_, Prod.ext h rfl⟩
  unfold Response.read at hc
  have h1 := header_reads m.header (m.header.octets ++ rest) (mem_prefix _ _) (Nat.zero_le _)
  rw [St.bind_ok h1, masked_self hm.flag, if_neg (by simp [hm.qd])] at hc
  obtain ⟨q, c1, _, d1⟩ := St.bind_ok_inv hc
  obtain ⟨_, c2, _, d2⟩ := St.bind_ok_inv d1
  obtain ⟨_, c3, _, d3⟩ := St.bind_ok_inv d2
  obtain ⟨_, c4, _, d4⟩ := St.bind_ok_inv d3
  have d5 : (Res.ok (⟨m.header, q, _, _, _⟩ : Response)) = .ok m' := congrArg Prod.fst d4
  rw [← Res.ok.inj d5]

/-- exactly which well-formed messages come out whole in which buffers, whatever their names: those the renderer does not refuse,
in buffers with the room it asks for -/
theorem c44_whole_iff (m : Response) (backing : List UInt8) (hm : m.FitsIn backing.length) :
    (∃ n r, m.to_wire (Render.new backing) = (.ok n, r) ∧ Response.from_wire r.data = .ok m) ↔
      ∃ x, m.written = some x ∧ x.room ≤ backing.length := by
  have ht := hm.typed
  constructor
  · rintro ⟨n, r, h1, h2⟩
    obtain ⟨_, h3 | ⟨h3, h4, h5⟩⟩ := (c73_cases m ht backing).2.2 n r h1
    · obtain ⟨x, a, b, _⟩ := h3; exact ⟨x, a, b⟩
    · exfalso
      obtain ⟨_, _, k | k⟩ := c44_roundtrip m backing hm n r h1
      · -- the truncated octets begin with the truncated header
        have hd : r.data = m.header.truncated.octets ++ (m.question.name.raw ++ (be16 m.question.typ.as_u16 ++ be16 m.question.class_.to_u16)) := by
          rw [h5]; exact cut_encoded _ ht m.header.truncated
        have hc : (⟨m.header.truncated, m.question, none, none, none⟩ : Response).FitsIn backing.length :=
          ⟨hm.question, trivial, trivial, trivial, cut_flag _ hm.flag, hm.qd, rfl, rfl, rfl⟩
        have := header_of_read hc _ (by rw [← hd]; exact h2)
        have hcut := cut_of_header hm this.symm
        rw [← hcut] at h4
        exact h4 rfl
      · have := k []
        rw [List.append_nil, h2] at this
        simp only [Res.ok.injEq] at this
        rw [this] at h4
        exact h4 rfl
  · rintro ⟨x, a, b⟩
    obtain ⟨r, h1, h2⟩ := written_ok ht backing a b
    refine ⟨_, r, h1, ?_⟩
    obtain ⟨_, _, k | k⟩ := c44_roundtrip m backing hm _ r h1
    · have := k []; rwa [List.append_nil] at this
    · have k0 := k []
      rw [List.append_nil] at k0
      obtain ⟨y, z, e1, e2, e3⟩ := Seek.seq_some.mp (show Seek.seq (Seek.head m) (Seek.body m) [] 0 = some x from a)
      obtain ⟨d, hh⟩ := seekHead ht
      rw [hh] at e1
      obtain rfl := Option.some.inj e1
      have hd := h2
      rw [e3, List.append_assoc] at hd
      rw [hd] at k0
      have hcut := cut_of_header hm (header_of_read hm _ k0)
      rw [← hd, hcut] at k0
      exact k0

/-- and when it does not come out whole, it comes out cut, or not at all -/
theorem c44_cut_iff (m : Response) (backing : List UInt8) (hm : m.FitsIn backing.length) (hne : m.cut ≠ m) :
    (∃ n r, m.to_wire (Render.new backing) = (.ok n, r) ∧ Response.from_wire r.data = .ok m.cut) ↔
      (∀ x, m.written = some x → backing.length < x.room) ∧ m.headSize + m.firstPiece .table ≤ backing.length := by
  have ht := hm.typed
  constructor
  · rintro ⟨n, r, h1, h2⟩
    have hno : ∀ x, m.written = some x → backing.length < x.room := fun x a => by
      by_cases c : x.room ≤ backing.length
      · obtain ⟨n', r', e1, e2⟩ := (c44_whole_iff m backing hm).mpr ⟨x, a, c⟩
        rw [h1] at e1
        simp only [Prod.mk.injEq, Res.ok.injEq] at e1
        obtain ⟨rfl, rfl⟩ := e1
        rw [h2] at e2
        exact absurd (Res.ok.inj e2) hne
      · omega
    refine ⟨hno, ?_⟩
    have hrec : m.records ≠ [] := fun c => by
      obtain ⟨x, d1, d2, _⟩ := written_norecords ht c
      have := hno x d1
      have : backing.length < m.headSize := by omega
      have := (c46_err_iff m ht backing).mpr this
      rw [h1] at this; simp at this
    by_cases c : m.headSize + m.firstPiece .table ≤ backing.length
    · exact c
    · exfalso
      by_cases c2 : backing.length < m.headSize
      · have := (c46_err_iff m ht backing).mpr c2
        rw [h1] at this; simp at this
      · have := (c46_panic_iff m ht backing).mpr ⟨hrec, by omega, by omega⟩
        rw [h1] at this; simp at this
  · rintro ⟨h1, h2⟩
    obtain ⟨r, e1, e2⟩ := (c73_exact m ht backing).2.1 h1 h2
    refine ⟨_, r, e1, ?_⟩
    obtain ⟨_, _, k | k⟩ := c44_roundtrip m backing hm _ r e1
    · exfalso
      have := k []
      rw [List.append_nil] at this
      obtain ⟨x, a, b⟩ := (c44_whole_iff m backing hm).mp ⟨_, r, e1, this⟩
      have := h1 x a; omega
    · have := k []; rwa [List.append_nil] at this

/-! ## C76 -/

/-- a message that was received is sent on as it was exactly when the renderer does not refuse it and has the room it asks for -/
theorem c76_whole_iff (raw : List UInt8) (m : Response) (h : Response.from_wire raw = .ok m) (backing : List UInt8) (hL : backing.length ≤ 65535) :
    (∃ n r, m.to_wire (Render.new backing) = (.ok n, r) ∧ Response.from_wire r.data = .ok m) ↔
      ∃ x, m.written = some x ∧ x.room ≤ backing.length :=
  c44_whole_iff m backing (c76_fits raw m h _ hL)

/-! ## samples and witnesses -/

/-- a message comes out whole if the buffer is large enough: false, this one does in no buffer -/
theorem c44_refused_violated : ∃ m : Response, m.Fits ∧ ∀ backing : List UInt8,
    ¬ ∃ n r, m.to_wire (Render.new backing) = (.ok n, r) ∧ Response.from_wire r.data = .ok m := by
  refine ⟨clashMsg, clashMsg_fits, fun backing h => ?_⟩
  obtain ⟨x, a, _⟩ := (c44_whole_iff clashMsg backing (clashMsg_fits.fitsIn _)).mp h
  have : clashMsg.written = none := by decide +kernel
  rw [this] at a
  simp at a

/-- the same with two addresses instead of four -/
def twiceMsg : Response :=
  ⟨⟨0x1234, 0x8000, .Query, .NoError, 1, 3, 0, 0⟩, ⟨clashA, .A, .IN⟩,
    some [⟨clashA, .CNAME, .IN, 60, [⟨.CNAME, [.name clashB]⟩]⟩,
      ⟨clashB, .A, .IN, 60, [⟨.A, [.ip [10, 0, 0, 1]]⟩, ⟨.A, [.ip [10, 0, 0, 2]]⟩]⟩], none, none⟩

theorem twiceMsg_fits : twiceMsg.Fits := by
  have ha : ∃ ls, ValidName ls ∧ clashA = Name.ofLabels ls := ⟨[[114, 116, 109, 122]], by decide, rfl⟩
  have hb : ∃ ls, ValidName ls ∧ clashB = Name.ofLabels ls := ⟨[[114, 117, 112, 115]], by decide, rfl⟩
  refine ⟨⟨ha, rfl, rfl⟩, ⟨by simp, ?_, ⟨fun h => by have := h.1; simp at this, trivial⟩, by simp, ?_⟩, trivial, trivial, rfl, rfl, rfl, rfl, rfl⟩
  · intro s hs
    simp only [List.mem_cons, List.not_mem_nil, or_false] at hs
    rcases hs with rfl | rfl
    · refine ⟨ha, rfl, rfl, ?_, by simp⟩
      intro rd hrd
      simp only [List.mem_cons, List.not_mem_nil, or_false] at hrd
      subst hrd
      exact ⟨rfl, ⟨_, rfl, hb, trivial⟩, by unfold RData.SizeOK; decide +kernel⟩
    · refine ⟨hb, rfl, rfl, ?_, by simp⟩
      intro rd hrd
      simp only [List.mem_cons, List.not_mem_nil, or_false] at hrd
      rcases hrd with rfl | rfl <;> exact ⟨rfl, ⟨_, rfl, rfl, trivial⟩, by unfold RData.SizeOK; decide +kernel⟩
  · intro s hs ho
    simp only [List.mem_cons, List.not_mem_nil, or_false] at hs
    rcases hs with rfl | rfl <;> simp at ho

/-- it comes out whole, with `rups.` spelled out three times, in 80 octets instead of 72 -/
example : twiceMsg.written.map (·.octets) = some [18, 52, 128, 0, 0, 1, 0, 3, 0, 0, 0, 0, 4, 114, 116, 109, 122, 0, 0, 1, 0, 1,
    192, 12, 0, 5, 0, 1, 0, 0, 0, 60, 0, 6, 4, 114, 117, 112, 115, 0,
    4, 114, 117, 112, 115, 0, 0, 1, 0, 1, 0, 0, 0, 60, 0, 4, 10, 0, 0, 1,
    4, 114, 117, 112, 115, 0, 0, 1, 0, 1, 0, 0, 0, 60, 0, 4, 10, 0, 0, 2] ∧ (twiceMsg.encodedBy .table).length = 72 := by decide +kernel
example : ∃ n r, twiceMsg.to_wire (Render.new (List.replicate 80 0)) = (.ok n, r) ∧ Response.from_wire r.data = .ok twiceMsg := by
  refine (c44_whole_iff twiceMsg _ (twiceMsg_fits.fitsIn _)).mpr ⟨(twiceMsg.written).get (by decide +kernel), ?_, ?_⟩
  · rw [Option.some_get]
  · decide +kernel
/-- in 79 octets only the truncated message -/
example : ∃ n r, twiceMsg.to_wire (Render.new (List.replicate 79 0)) = (.ok n, r) ∧ Response.from_wire r.data = .ok twiceMsg.cut := by
  refine (c44_cut_iff twiceMsg _ (twiceMsg_fits.fitsIn _) (by decide +kernel)).mpr ⟨fun x hx => ?_, by decide +kernel⟩
  have h : twiceMsg.written.map (·.room) = some 80 := by decide +kernel
  rw [hx] at h
  have : x.room = 80 := by simpa using h
  rw [this, List.length_replicate]
  omega

/-- a text record without strings at the end of a message: 28 octets, but a buffer of 29 is asked for -/
def noTextMsg : Response :=
  ⟨⟨1, 0x8000, .Query, .NoError, 1, 1, 0, 0⟩, ⟨Name.root, .TXT, .IN⟩, some [⟨Name.root, .TXT, .IN, 0, [⟨.TXT, [.text []]⟩]⟩], none, none⟩
theorem noTextMsg_typed : noTextMsg.Typed := by
  have hr : ∃ ls, ValidName ls ∧ Name.root = Name.ofLabels ls := ⟨[], by decide, by decide⟩
  refine ⟨hr, fun t sets hs x hx => ?_⟩
  cases t <;> simp only [Response.section_, noTextMsg, Option.some.injEq, reduceCtorEq] at hs
  subst hs
  simp only [List.mem_cons, List.not_mem_nil, or_false] at hx
  subst hx
  refine ⟨hr, fun rd hrd => ?_⟩
  simp only [List.mem_cons, List.not_mem_nil, or_false] at hrd
  subst hrd
  exact ⟨_, rfl, trivial, trivial⟩
example : noTextMsg.written.map (fun x => (x.octets.length, x.room)) = some (28, 29) := by decide +kernel
/-- the buffer that holds the octets of the message is not enough -/
theorem c73_room_violated : ∃ (m : Response) (x : Written), m.Typed ∧ m.written = some x ∧
    ∃ r, m.to_wire (Render.new (List.replicate x.octets.length 0)) = (.ok m.headSize, r) ∧ r.data = m.cut.encodedBy .table := by
  have hw : noTextMsg.written.map (fun x => (x.octets.length, x.room)) = some (28, 29) := by decide +kernel
  cases hx : noTextMsg.written with
  | none => rw [hx] at hw; simp at hw
  | some x =>
    rw [hx] at hw
    simp only [Option.map_some, Option.some.injEq, Prod.mk.injEq] at hw
    refine ⟨noTextMsg, x, noTextMsg_typed, hx, ?_⟩
    refine (c73_exact noTextMsg noTextMsg_typed _).2.1 (fun y hy => ?_) ?_
    · rw [hx] at hy
      obtain rfl := Option.some.inj hy
      rw [List.length_replicate]; omega
    · rw [List.length_replicate, hw.1]
      decide +kernel

end R53
