import Verif.Proofs.Encode2
import Verif.Proofs.Spell
import Verif.Proofs.Panic
import Verif.Props.Fits
/-!
# C73: the octets of a message, for every buffer size

`Response.encodedBy` (Spec/Encode.lean) is the textbook encoder with name compression, given which names it remembers; it knows
no hash collisions and no buffer. With `Memory.table` it forgets the names for which the table of the renderer has no place; with
`Memory.all` (`Response.encoded`) it forgets none. The hypothesis `ClashFree` (Spec/Size.lean) is that no two names written have
both length and hash in common; without it the statement is false, `c44_collision_violated`.
-/
namespace R53

/-- all that can happen, by buffer size: the encoding of the whole message; that of the truncated message; a panic,
when the first piece of the first owner name does not fit behind the question; an error, when the question does not fit.
Missing: names that collide, where it is false -/
theorem c73_outcome_partial (m : Response) (hm : m.Typed) (hne : m.NoEmptyData) (hc : ClashFree m.names) (backing : List UInt8) :
    ((m.encodedBy .table).length ≤ backing.length →
      ∃ r, m.to_wire (Render.new backing) = (.ok (m.encodedBy .table).length, r) ∧ r.data = m.encodedBy .table) ∧
    (m.headSize + m.firstPiece .table ≤ backing.length → backing.length < (m.encodedBy .table).length →
      ∃ r, m.to_wire (Render.new backing) = (.ok m.headSize, r) ∧ r.data = m.cut.encodedBy .table) ∧
    (m.headSize ≤ backing.length → backing.length < m.headSize + m.firstPiece .table → backing.length < (m.encodedBy .table).length →
      (m.to_wire (Render.new backing)).1 = .panic) ∧
    (backing.length < m.headSize → (m.to_wire (Render.new backing)).1 = .err) := by
  refine ⟨encoded_ok hm hne hc backing, fun h1 h2 => ?_, fun h1 h2 h3 => ?_, fun h => (c46_err_iff m hm backing).mpr h⟩
  · obtain ⟨r, e1, e2⟩ := (encoded_cut hm hne hc backing (by omega) h2).2 h1
    refine ⟨r, e1, ?_⟩
    rw [e2]
    exact (cut_encoded _ hm m.header.truncated).symm
  · exact (encoded_cut hm hne hc backing h1 h3).1 h2

/-- while no bucket of the table needs a sixteenth place, these are the encoding, and the first piece, of the textbook -/
theorem c73_textbook_partial (m : Response) (hr : Roomy m.dictionary) :
    m.encodedBy .table = m.encoded ∧ m.firstPiece .table = m.firstPiece .all :=
  ⟨encoded_table hr, firstPiece_table (hr.prefix (dictionary_head m))⟩

/-- the whole message comes out if and only if the buffer holds its encoding -/
theorem c73_whole_iff_partial (m : Response) (hm : m.Typed) (hne : m.NoEmptyData) (hc : ClashFree m.names) (backing : List UInt8)
    (hrec : m.records ≠ []) :
    (∃ n r, m.to_wire (Render.new backing) = (.ok n, r) ∧ r.data = m.encodedBy .table) ↔ (m.encodedBy .table).length ≤ backing.length := by
  obtain ⟨k1, k2, k3, k4⟩ := c73_outcome_partial m hm hne hc backing
  refine ⟨fun ⟨n, r, h1, h2⟩ => ?_, fun h => by obtain ⟨r, h1, h2⟩ := k1 h; exact ⟨_, r, h1, h2⟩⟩
  by_cases hfit : (m.encodedBy .table).length ≤ backing.length
  · exact hfit
  · exfalso
    by_cases a1 : backing.length < m.headSize
    · rw [h1] at k4; exact absurd (k4 a1) (by simp)
    by_cases a2 : backing.length < m.headSize + m.firstPiece .table
    · rw [h1] at k3; exact absurd (k3 (by omega) a2 (by omega)) (by simp)
    obtain ⟨r', e1, e2⟩ := k2 (by omega) (by omega)
    rw [h1] at e1
    simp only [Prod.mk.injEq, Res.ok.injEq] at e1
    obtain ⟨rfl, rfl⟩ := e1
    have hlen : r.data.length = m.headSize := by
      rw [e2]
      show ((⟨m.header.truncated, m.question, none, none, none⟩ : Response).encodedBy .table).length = _
      rw [cut_encoded _ hm]
      simp only [List.length_append, Header.octets_length, be16_length, Response.headSize]
    rw [h2] at hlen
    omega

/-- the encoding of a well-formed message, whichever names are remembered, is never longer than the uncompressed form, and decodes
to the message; no condition on hashes, tables or buffers -/
theorem c73_decodes (k : Memory) (m : Response) (hm : m.Fits) (tail : List UInt8) :
    (m.encodedBy k).length ≤ m.size ∧ Response.from_wire (m.encodedBy k ++ tail) = .ok m := by
  obtain ⟨h1, h2⟩ := spells_message (k := k) (Enc.name k) (fun n hn => Spells.name hn) hm tail
  exact ⟨h2, (from_wire_iff _ _).mpr h1⟩

/-! ## C46, for all names -/

/-- exactly which messages panic in which buffers: those with a record, when the buffer ends behind the question and before the end
of the first piece (spelled labels, or pointer) of the first owner name. No condition on the names, their hashes or the table -/
theorem c46_panic_iff (m : Response) (hm : m.Typed) (backing : List UInt8) :
    (m.to_wire (Render.new backing)).1 = .panic ↔
      m.records ≠ [] ∧ m.headSize ≤ backing.length ∧ backing.length < m.headSize + m.firstPiece .table := by
  by_cases hlo : m.headSize ≤ backing.length
  · rw [panic_exact hm backing hlo]
    simp [hlo]
  · have := (c46_err_iff m hm backing).mpr (by omega)
    rw [this]; simp; omega

/-- a buffer of at least 255 octets more than header and question is always large enough not to panic, and so is one that is too
small for the question -/
theorem c46_safe_sizes (m : Response) (hm : m.Typed) (backing : List UInt8) (h : backing.length < m.headSize ∨ m.headSize + 255 ≤ backing.length) :
    (m.to_wire (Render.new backing)).1 ≠ .panic := by
  intro hp
  obtain ⟨x, rest, h1, h2, h3⟩ := c46_panic_range_partial m hm backing hp
  have hx : x.name.WF := by
    rcases startsWith_body hm with ⟨k1, _⟩ | ⟨y, r, k1, k2, _⟩
    · rw [k1] at h1; simp at h1
    · rw [k1] at h1; simp only [List.cons.injEq] at h1; rw [← h1.1]; exact k2
  obtain ⟨ls, hv, hn⟩ := hx
  have : x.name.raw.length ≤ 255 := by
    rw [hn, Name.ofLabels_raw, ← nameWire_eq]; exact hv.2
  omega

/-! ## samples -/

/-- `a.example. NS b.example.`, twice the same set of owners and a mail server below the second -/
def refName1 : Name := Name.ofLabels [[97], [101, 120]]
def refName2 : Name := Name.ofLabels [[98], [101, 120]]
def refMsg : Response :=
  ⟨⟨7, 0x8000, .Query, .NoError, 1, 2, 0, 1⟩, ⟨refName1, .NS, .IN⟩,
    some [⟨refName1, .NS, .IN, 60, [⟨.NS, [.name refName2]⟩, ⟨.NS, [.name refName1]⟩]⟩], none,
    some [⟨refName2, .A, .IN, 60, [⟨.A, [.ip [1, 2, 3, 4]]⟩]⟩]⟩

/-- the encoder on it: owner as a pointer to the question, `b` with a pointer to `ex`, pointers only from then on -/
example : refMsg.encoded = [0, 7, 128, 0, 0, 1, 0, 2, 0, 0, 0, 1, 1, 97, 2, 101, 120, 0, 0, 2, 0, 1,
    192, 12, 0, 2, 0, 1, 0, 0, 0, 60, 0, 4, 1, 98, 192, 14,
    192, 12, 0, 2, 0, 1, 0, 0, 0, 60, 0, 2, 192, 12,
    192, 34, 0, 1, 0, 1, 0, 0, 0, 60, 0, 4, 1, 2, 3, 4] := by decide +kernel
example : refMsg.firstPiece .table = 2 ∧ refMsg.headSize = 22 ∧ refMsg.size = 86 ∧ refMsg.encoded.length = 68 := by decide +kernel

theorem refMsg_typed : refMsg.Typed := by
  have h1 : refName1.WF := ⟨[[97], [101, 120]], by decide, rfl⟩
  have h2 : refName2.WF := ⟨[[98], [101, 120]], by decide, rfl⟩
  refine ⟨h1, fun t sets hs => ?_⟩
  cases t <;> simp only [Response.section_, refMsg, Option.some.injEq, reduceCtorEq] at hs
  · subst hs
    intro s hs
    simp only [List.mem_singleton] at hs
    subst hs
    refine ⟨h1, fun rd hrd => ?_⟩
    simp only [List.mem_cons, List.not_mem_nil, or_false] at hrd
    rcases hrd with rfl | rfl
    · exact ⟨_, rfl, h2, trivial⟩
    · exact ⟨_, rfl, h1, trivial⟩
  · subst hs
    intro s hs
    simp only [List.mem_singleton] at hs
    subst hs
    refine ⟨h2, fun rd hrd => ?_⟩
    simp only [List.mem_singleton] at hrd
    subst hrd
    exact ⟨_, rfl, rfl, trivial⟩

theorem refMsg_noEmpty : refMsg.NoEmptyData := by
  intro t sets hs
  cases t <;> simp only [Response.section_, refMsg, Option.some.injEq, reduceCtorEq] at hs <;> subst hs <;> decide +kernel

/-- the hypotheses are met -/
example : ClashFree refMsg.names ∧ Roomy refMsg.dictionary ∧ refMsg.dictionary.length = 3 := by decide +kernel

/-- and the four outcomes -/
example (backing : List UInt8) (h : backing.length = 68) : ∃ r, refMsg.to_wire (Render.new backing) = (.ok 68, r) ∧ r.data = refMsg.encoded := by
  have := (c73_outcome_partial refMsg refMsg_typed refMsg_noEmpty (by decide +kernel) backing).1 (by
    rw [h]; decide +kernel)
  rwa [(c73_textbook_partial refMsg (by decide +kernel)).1, show refMsg.encoded.length = 68 by decide +kernel] at this
example : (refMsg.to_wire (Render.new (List.replicate 67 0))).1 = .ok 22 ∧ (refMsg.to_wire (Render.new (List.replicate 23 0))).1 = .panic ∧
    (refMsg.to_wire (Render.new (List.replicate 21 0))).1 = .err := by decide +kernel

/-- sixteen names of one bucket -/
def fullLabels : List Label := [[49, 52], [54, 110], [55, 98], [102, 97], [105, 109], [105, 116], [107, 108], [108, 48], [108, 49], [109, 111],
    [109, 112], [111, 103], [113, 119], [119, 97], [120, 54], [115, 102]]

/-- a question, and sixteen sets of addresses, the last two with the sixteenth name -/
def fullMsg : Response :=
  ⟨⟨7, 0x8000, .Query, .NoError, 1, 16, 0, 0⟩, ⟨Name.ofLabels [[49, 52]], .A, .IN⟩,
    some ((fullLabels.drop 1).map (fun l => (⟨Name.ofLabels [l], .A, .IN, 60, [⟨.A, [.ip [1, 2, 3, 4]]⟩]⟩ : RRset)) ++
      [⟨Name.ofLabels [[115, 102]], .TXT, .IN, 60, [⟨.TXT, [.text [[120]]]⟩]⟩]), none, none⟩

theorem fullMsg_typed : fullMsg.Typed ∧ fullMsg.NoEmptyData := by
  have hn : ∀ l ∈ fullLabels, (Name.ofLabels [l]).WF := fun l hl => ⟨[l], by revert l; decide, rfl⟩
  refine ⟨⟨hn [49, 52] (by decide), fun t sets hs => ?_⟩, fun t sets hs => ?_⟩
  · cases t <;> simp only [Response.section_, fullMsg, Option.some.injEq, reduceCtorEq] at hs
    subst hs
    intro s hs
    rcases List.mem_append.mp hs with hs | hs
    · obtain ⟨l, hl, rfl⟩ := List.mem_map.mp hs
      refine ⟨hn l (List.mem_of_mem_drop hl), fun rd hrd => ?_⟩
      simp only [List.mem_singleton] at hrd
      subst hrd
      exact ⟨_, rfl, rfl, trivial⟩
    · simp only [List.mem_singleton] at hs
      subst hs
      refine ⟨hn _ (by decide), fun rd hrd => ?_⟩
      simp only [List.mem_singleton] at hrd
      subst hrd
      exact ⟨_, rfl, trivial, trivial⟩
  · cases t <;> simp only [Response.section_, fullMsg, Option.some.injEq, reduceCtorEq] at hs
    subst hs
    decide +kernel

/-- with every name remembered the last owner would be a pointer; but the table has no place for the sixteenth name of a bucket,
so it is spelled again. (No harm: RFC 1035 does not ask for compression.) -/
theorem c73_textbook_violated : ∃ (m : Response) (r : Render), m.Typed ∧ m.NoEmptyData ∧ ClashFree m.names ∧
    m.to_wire (Render.new (List.replicate 512 0)) = (.ok 306, r) ∧ m.encoded.length = 304 ∧ r.data ≠ m.encoded := by
  have hc : ClashFree fullMsg.names := by decide +kernel
  have hl : (fullMsg.encodedBy .table).length = 306 := by decide +kernel
  have hl' : fullMsg.encoded.length = 304 := by decide +kernel
  obtain ⟨r, e1, e2⟩ := (c73_outcome_partial fullMsg fullMsg_typed.1 fullMsg_typed.2 hc (List.replicate 512 0)).1 (by rw [hl, List.length_replicate]; decide)
  rw [hl] at e1
  refine ⟨fullMsg, r, fullMsg_typed.1, fullMsg_typed.2, hc, e1, hl', fun h => ?_⟩
  have := congrArg List.length h
  rw [e2, hl, hl'] at this
  simp at this

/-- the names of `clashMsg` collide, which does not matter here: exactly two sizes panic -/
example (backing : List UInt8) : (clashMsg.to_wire (Render.new backing)).1 = .panic ↔ backing.length = 22 ∨ backing.length = 23 := by
  rw [c46_panic_iff clashMsg clashMsg_fits.typed backing,
    show clashMsg.headSize = 22 by decide +kernel, show clashMsg.firstPiece .table = 2 by decide +kernel]
  constructor
  · rintro ⟨_, h1, h2⟩; omega
  · intro h; exact ⟨by decide +kernel, by omega, by omega⟩

/-! ## C74: names in newer types -/

theorem rfcData_old (k : Memory) (f g : Name → Enc) (rd : RData) (h : rd.kind ∉ newerWithName) : rfcData k f rd = rfcData k g rd := by
  obtain ⟨ty, vs⟩ := rd
  unfold rfcData layout
  simp only at h ⊢
  split <;> first | rfl | (exfalso; apply h; decide)

theorem encoded3597_eq (k : Memory) {m : Response} (h : ∀ s ∈ m.records, ∀ rd ∈ s.rdatas, rd.kind ∉ newerWithName) : m.encoded3597 k = m.encodedBy k := by
  have hset : ∀ s : RRset, (∀ rd ∈ s.rdatas, rd.kind ∉ newerWithName) →
      encSetWith k (rfcData k Enc.plain) s = encSetWith k (encData k) s := by
    intro s hs
    unfold encSetWith
    split
    · rfl
    · congr 1
      exact List.map_congr_left fun rd hrd => by
        have := rfcData_old k Enc.plain (Enc.name k) rd (hs rd hrd)
        simp only [this, encData]
  have hsec : ∀ s : Section, (∀ x ∈ Section.records s, ∀ rd ∈ x.rdatas, rd.kind ∉ newerWithName) →
      encSectionWith k (rfcData k Enc.plain) s = encSectionWith k (encData k) s := by
    intro s hs
    unfold encSectionWith
    congr 1
    refine List.map_congr_left fun x hx => hset x fun rd hrd => ?_
    cases s with
    | none => simp at hx
    | some sets =>
      refine hs { x with rdatas := [rd] } ?_ rd (by simp)
      refine List.mem_flatMap.mpr ⟨x, hx, ?_⟩
      unfold RRset.records
      split
      · rename_i he; rw [he] at hrd; simp at hrd
      · exact List.mem_map.mpr ⟨rd, by simp_all, rfl⟩
  unfold Response.encoded3597 Response.encodedBy encMessage encMessageWith
  unfold Response.records at h
  rw [hsec m.answer fun x hx => h x (by simp [hx]), hsec m.authority fun x hx => h x (by simp [hx]), hsec m.additional fun x hx => h x (by simp [hx])]

/-- messages without the newer name-bearing types come out as RFC 3597 wants them. Missing: the others, where it is false -/
theorem c74_old_types_partial (m : Response) (hm : m.Typed) (hne : m.NoEmptyData) (hc : ClashFree m.names)
    (hold : ∀ s ∈ m.records, ∀ rd ∈ s.rdatas, rd.kind ∉ newerWithName) (backing : List UInt8) (hfit : (m.encoded3597 .table).length ≤ backing.length) :
    ∃ r, m.to_wire (Render.new backing) = (.ok (m.encoded3597 .table).length, r) ∧ r.data = m.encoded3597 .table := by
  rw [encoded3597_eq _ hold] at hfit ⊢
  exact (c73_outcome_partial m hm hne hc backing).1 hfit

/-- the encoding RFC 3597 asks for would be read back as the message by the decoder: it follows pointers but needs none -/
theorem c74_decodes (k : Memory) (m : Response) (hm : m.Fits) (tail : List UInt8) :
    (m.encoded3597 k).length ≤ m.size ∧ Response.from_wire (m.encoded3597 k ++ tail) = .ok m := by
  obtain ⟨h1, h2⟩ := spells_message (k := k) Enc.plain (fun n hn => Spells.plain hn) hm tail
  exact ⟨h2, (from_wire_iff _ _).mpr h1⟩

/-- the hypotheses are met -/
example : ∀ s ∈ refMsg.records, ∀ rd ∈ s.rdatas, rd.kind ∉ newerWithName := by decide +kernel

/-- `a.ex. SRV 1 2 3 a.ex.` -/
def srvMsg : Response :=
  ⟨⟨7, 0x8000, .Query, .NoError, 1, 1, 0, 0⟩, ⟨refName1, .SRV, .IN⟩,
    some [⟨refName1, .SRV, .IN, 60, [⟨.SRV, [.u16 1, .u16 2, .u16 3, .name refName1]⟩]⟩], none, none⟩

/-- the target of a SRV record is written as a pointer (to the question) although there is room to spell it -/
theorem c74_violated : ∃ (m : Response) (backing : List UInt8) (r : Render), m.Typed ∧ m.NoEmptyData ∧ ClashFree m.names ∧ Roomy m.dictionary ∧
    (m.encoded3597 .all).length ≤ backing.length ∧ m.to_wire (Render.new backing) = (.ok 42, r) ∧ (m.encoded3597 .all).length = 46 ∧
    r.data.drop 34 = [0, 1, 0, 2, 0, 3, 192, 12] ∧ (m.encoded3597 .all).drop 34 = [0, 1, 0, 2, 0, 3, 1, 97, 2, 101, 120, 0] := by
  have h1 : refName1.WF := ⟨[[97], [101, 120]], by decide, rfl⟩
  have ht : srvMsg.Typed := by
    refine ⟨h1, fun t sets hs => ?_⟩
    cases t <;> simp only [Response.section_, srvMsg, Option.some.injEq, reduceCtorEq] at hs
    subst hs
    intro s hs
    simp only [List.mem_singleton] at hs
    subst hs
    refine ⟨h1, fun rd hrd => ?_⟩
    simp only [List.mem_singleton] at hrd
    subst hrd
    exact ⟨_, rfl, trivial, trivial, trivial, h1, trivial⟩
  have hne : srvMsg.NoEmptyData := by
    intro t sets hs
    cases t <;> simp only [Response.section_, srvMsg, Option.some.injEq, reduceCtorEq] at hs
    subst hs; decide +kernel
  have hc : ClashFree srvMsg.names := by decide +kernel
  have hr : Roomy srvMsg.dictionary := by decide +kernel
  have hl : srvMsg.encoded.length = 42 := by decide +kernel
  obtain ⟨r, e1, e2⟩ := (c73_outcome_partial srvMsg ht hne hc (List.replicate 64 0)).1 (by rw [(c73_textbook_partial srvMsg hr).1, hl, List.length_replicate]; decide)
  rw [(c73_textbook_partial srvMsg hr).1] at e1 e2
  rw [hl] at e1
  have k1 : (srvMsg.encoded3597 .all).length = 46 := by decide +kernel
  exact ⟨srvMsg, List.replicate 64 0, r, ht, hne, hc, hr, by rw [k1, List.length_replicate]; decide, e1, k1,
    by rw [e2]; decide +kernel, by decide +kernel⟩

end R53
