import Batteries.Data.List.Perm
import Verif.Proofs.RRset
import Verif.Proofs.RdataEq
import Verif.Props.Codes
/-!
# C36–C40: record data and record sets
-/
namespace R53

/-! ## C36 -/

/-- `RData::to_wire` then `RData::from_wire` with the length of what was written, in any render history -/
theorem c36_roundtrip {backing : List UInt8} {h : Hist} (hr : Reached backing h) (rd : RData) (hf : rd.Fits) :
    (rd.to_wire h.r).1 ≠ .panic ∧
    (∃ d, (rd.to_wire h.r).2.data = h.r.data ++ d) ∧
    (rd.to_wire h.r).2.data.length ≤ backing.length ∧
    ((rd.to_wire h.r).1 = .ok () → (rd.to_wire h.r).2.data.length - h.r.data.length ≤ 65535 → ∀ tail,
      RData.from_wire rd.kind (UInt16.ofNat ((rd.to_wire h.r).2.data.length - h.r.data.length))
          ⟨(rd.to_wire h.r).2.data ++ tail, h.r.data.length⟩ =
        (.ok rd, ⟨(rd.to_wire h.r).2.data ++ tail, (rd.to_wire h.r).2.data.length⟩)) := by
  obtain ⟨g, hi, _⟩ := hr.hinv.inv
  have hl : h.r.data.length = h.r.buffer.len := OutBuf.contents_length hi.buf
  rw [← hr.capacity]
  rcases emits_rdata hf h.r g hi with ⟨r', out, h1, h2, h3⟩ | ⟨r', h1, h2⟩
  · have hl' : r'.data.length = h.r.buffer.len + out.length := by rw [h2.data, List.length_append, hl]
    rw [h1]
    refine ⟨by simp, ⟨out, h2.data⟩, by rw [hl']; exact h2.fit, fun _ hlt tail => ?_⟩
    simp only at hlt ⊢
    rw [hl, hl'] at hlt ⊢
    rw [Nat.add_sub_cancel_left] at hlt ⊢
    exact h3 (by omega) _ (Mem.le_append (by exact h2.inv.mem) tail) (by rw [List.length_append, hl']; omega)
  · rw [h1]
    refine ⟨by simp, h2.data, ?_, fun h => by simp at h⟩
    obtain ⟨g', _, hi⟩ := h2.inv
    rw [Render.data, OutBuf.contents_length hi.buf, ← h2.cap]; exact hi.buf

/-- the octets written are never more than the uncompressed size of the data, so the length condition of
`c36_roundtrip` holds whenever the data fits a record at all -/
theorem c36_size {backing : List UInt8} {h : Hist} (hr : Reached backing h) (rd : RData) (hf : rd.Fits)
    (hok : (rd.to_wire h.r).1 = .ok ()) : (rd.to_wire h.r).2.data.length - h.r.data.length ≤ rd.size := by
  obtain ⟨g, hi, _⟩ := hr.hinv.inv
  rcases sized_rdata hf h.r g hi with ⟨r', out, h1, h2, h3⟩ | ⟨r', h1, h2⟩
  · rw [h1]; simp only; rw [h2.data, List.length_append]; omega
  · rw [h1] at hok; simp at hok

/-- an MX record data -/
def sampleMX : RData := ⟨.MX, [.u16 10, .name (Name.ofLabels [[109], [98]])]⟩
/-- a record data with every kind of field -/
def sampleRRSIG : RData := ⟨.RRSIG, [.rrtype .A, .u8 8, .u8 2, .u32 300, .u32 1, .u32 2, .u16 7, .name (Name.ofLabels [[98]]), .bytes [1, 2, 3]]⟩

theorem sampleMX_fits : sampleMX.Fits := ⟨_, rfl, trivial, ⟨_, by decide, rfl⟩, trivial⟩
theorem sampleRRSIG_fits : sampleRRSIG.Fits :=
  ⟨_, rfl, rfl, trivial, trivial, trivial, trivial, trivial, trivial, ⟨_, by decide, rfl⟩, trivial, trivial⟩

/-- the name of the MX data is compressed against the names written before -/
example : (sampleMX.to_wire sampleHist.r).1 = .ok () ∧
    (sampleMX.to_wire sampleHist.r).2.data = sampleHist.r.data ++ [0, 10, 1, 109, 0xC0, 4] := by decide +kernel
/-! ## C37 -/

/-- from any position inside the data: a value of the requested type with fitting fields after exactly `len` octets, the
same whatever is appended to the message; or `Err`. Never a panic, and the message is not changed. -/
theorem c37_rdlength (t : RRType) (len : UInt16) (b : InBuf) (hb : b.pos ≤ b.data.length) :
    (∃ rd, RData.from_wire t len b = (.ok rd, ⟨b.data, b.pos + len.toNat⟩) ∧ b.pos + len.toNat ≤ b.data.length ∧
      rd.kind = t ∧ rd.Fits ∧ ∀ tail, RData.from_wire t len ⟨b.data ++ tail, b.pos⟩ = (.ok rd, ⟨b.data ++ tail, b.pos + len.toNat⟩)) ∨
    (∃ p, RData.from_wire t len b = (.err, ⟨b.data, p⟩)) := by
  rcases RData.safe_from_wire t len b hb with ⟨rd, e, h1, h2, h3, h4, h5, h6, rfl⟩ | ⟨b', h1, h2⟩
  · refine Or.inl ⟨rd, h1, h3, h5, h6, fun tail => ?_⟩
    refine h4 _ ?_ (by simp; omega)
    refine Mem.le_trans ?_ (Mem.le_append (Mem.le_refl _) tail)
    unfold region
    split
    · exact memOf_take_le _ _
    · exact Mem.le_refl _
  · exact Or.inr ⟨b'.pos, by rw [h1, ← h2]⟩

/-- the types with no name in their data -/
def RRType.Nameless (t : RRType) : Prop := ∀ cs, schema t = some cs → ∀ c ∈ cs, c.1 ≠ .name

theorem nameless_own {t : RRType} (h : t.Nameless) : RData.own t = true := by
  unfold RData.own
  match hs : schema t with
  | none => rfl
  | some cs =>
    unfold Field.ownAll
    simp only [List.all_eq_true]
    intro c hc
    have := h cs hs c hc
    revert this
    generalize c.1 = x
    cases x <;> simp [Codec.own]

/-- data without names depends only on the octets up to its end: what follows may be anything -/
theorem c37_own_octets (t : RRType) (ht : t.Nameless) (len : UInt16) (pre body tail tail' : List UInt8) (hl : body.length = len.toNat)
    (rd : RData) (b' : InBuf) (h : RData.from_wire t len ⟨pre ++ body ++ tail, pre.length⟩ = (.ok rd, b')) :
    RData.from_wire t len ⟨pre ++ body ++ tail', pre.length⟩ = (.ok rd, ⟨pre ++ body ++ tail', pre.length + len.toNat⟩) := by
  rcases RData.safe_from_wire t len ⟨pre ++ body ++ tail, pre.length⟩ (by simp) with ⟨rd', e, h1, h2, h3, h4, h5, h6, rfl⟩ | ⟨b', h1, h2⟩
  · rw [h] at h1
    obtain rfl : rd = rd' := by simpa using congrArg (fun x : Res RData × InBuf => x.1) h1
    refine h4 _ ?_ (by simp)
    rw [nameless_own ht]
    simp only [region, if_true]
    rw [← hl, ← List.length_append, List.take_left]
    exact Mem.le_append (Mem.le_refl _) _
  · rw [h] at h1; simp at h1

example : RRType.Nameless .CAA ∧ ¬ RRType.Nameless .MX := by
  constructor
  · intro cs h c hc
    simp only [schema, Option.some.injEq] at h
    subst h
    simp only [List.mem_cons, List.not_mem_nil, or_false] at hc
    rcases hc with rfl | rfl | rfl <;> simp
  · intro h
    exact h _ rfl (.name, .name) (by simp) rfl

example : (RData.from_wire .CAA 5 ⟨[9, 0, 2, 97, 98, 1, 7], 1⟩).1 = .ok ⟨.CAA, [.u8 0, .bytes [97, 98], .bytes [1]]⟩ ∧
    (RData.from_wire .CAA 3 ⟨[9, 0, 2, 97, 98, 1, 7], 1⟩).1 = .err := by decide +kernel

/-! ## C38 -/

/-- the length prefix of a character-string is cut to one octet: this CAA data renders without error and decodes to
different data -/
theorem c38_string_violated :
    ∃ rd rd' : RData, rd' ≠ rd ∧ (rd.to_wire (Render.new (List.replicate 300 0))).1 = .ok () ∧
      (RData.from_wire rd.kind 258 ⟨(rd.to_wire (Render.new (List.replicate 300 0))).2.data, 0⟩).1 = .ok rd' :=
  ⟨⟨.CAA, [.u8 0, .bytes (List.replicate 256 97), .bytes []]⟩, ⟨.CAA, [.u8 0, .bytes [], .bytes (List.replicate 256 97)]⟩,
    by decide +kernel, by decide +kernel, by decide +kernel⟩

/-- the RDLENGTH written is the length of the data modulo 2^16, for every fitting data in every render history -/
theorem c38_rdlength_written {backing : List UInt8} {h : Hist} (hr : Reached backing h) (rd : RData) (hf : rd.Fits)
    (hok : (RRset.rdata_to_wire rd h.r).1 = .ok ()) :
    ∃ body, (RRset.rdata_to_wire rd h.r).2.data = h.r.data ++ be16 (UInt16.ofNat body.length) ++ body ∧ body.length ≤ rd.size := by
  obtain ⟨g, hi, _⟩ := hr.hinv.inv
  rcases emits_rdlen (sized_rdata hf) h.r g hi with ⟨r', out, h1, h2, body, g0, rfl, h3, h4, h5⟩ | ⟨r', h1, h2⟩
  · exact ⟨body, by rw [h1]; simp only; rw [h2.data, List.append_assoc], h4⟩
  · rw [h1] at hok; simp at hok

/-- any OPT data goes out whole, whatever its length -/
theorem opt_data_written (d backing : List UInt8) (hc : d.length + 2 < backing.length) :
    ∃ r', RRset.rdata_to_wire ⟨.OPT, [.bytes d]⟩ (Render.new backing) = (.ok (), r') ∧ r'.data = be16 (UInt16.ofNat d.length) ++ d := by
  obtain ⟨g, hi, _⟩ := (Reached.new (backing := backing)).hinv.inv
  simp only at hi
  generalize hr : Render.new backing = r at hi
  have hb : r.buffer.len = 0 ∧ r.buffer.capacity = backing.length := by
    rw [← hr]; exact ⟨rfl, by simp [Render.new, OutBuf.new, OutBuf.capacity]⟩
  have hd0 : r.data = [] := by
    apply List.length_eq_zero_iff.mp; rw [Render.data, OutBuf.contents_length hi.buf]; exact hb.1
  have hto : RData.to_wire ⟨.OPT, [.bytes d]⟩ = (Render.write_bytes d >>= fun _ => pure ()) := rfl
  have hem : EmitsP (RData.to_wire ⟨.OPT, [.bytes d]⟩) fun _ _ out => out = d := by
    rw [hto]
    refine EmitsP.mono (EmitsP.octets (d := d) (fun r => ?_)) fun g p out h => h.1
    have := Render.write_bytes_r d r
    by_cases hf : r.buffer.len + d.length ≤ r.buffer.capacity
    · rw [if_pos hf] at this ⊢; rw [St.bind_ok (show Render.write_bytes d r = _ from this)]; rfl
    · rw [if_neg hf] at this ⊢; rw [St.bind_err (show Render.write_bytes d r = _ from this)]
  rcases emits_rdlen hem r g hi with ⟨r', out, h1, h2, body, g0, rfl, h3, rfl⟩ | ⟨r', h1, h2⟩
  · exact ⟨r', h1, by rw [h2.data, hd0, List.nil_append]⟩
  · exfalso
    have hcap : r.buffer.data.length = backing.length := hb.2
    unfold RRset.rdata_to_wire at h1
    have hsk : Render.skip 2 r = (.ok (), { r with buffer := { r.buffer with len := r.buffer.len + 2 } }) := by
      rw [Render.skip, Render.onBuffer_apply]; unfold OutBuf.skip; rw [if_pos (by rw [hb.1, hb.2]; omega)]
    rw [St.get_bind, St.bind_ok hsk] at h1
    have hfit : ({ r.buffer with len := r.buffer.len + 2 } : OutBuf).len + d.length ≤ ({ r.buffer with len := r.buffer.len + 2 } : OutBuf).capacity := by
      show r.buffer.len + 2 + d.length ≤ r.buffer.data.length
      rw [hb.1]; omega
    have hw : RData.to_wire ⟨.OPT, [.bytes d]⟩ { r with buffer := { r.buffer with len := r.buffer.len + 2 } } =
        (.ok (), { r with buffer := OutBuf.append { r.buffer with len := r.buffer.len + 2 } d }) := by
      rw [hto]
      have := Render.write_bytes_r d { r with buffer := { r.buffer with len := r.buffer.len + 2 } }
      rw [if_pos hfit] at this
      rw [St.bind_ok (show Render.write_bytes d _ = _ from this)]
      rfl
    rw [St.bind_ok hw, St.get_bind] at h1
    have hl : (OutBuf.append { r.buffer with len := r.buffer.len + 2 } d).len = d.length + 2 := by
      show r.buffer.len + 2 + d.length = _
      rw [hb.1]; omega
    rw [St.lift_ok_bind (csub_ok (by rw [hb.1]; exact Nat.zero_le _)), St.lift_ok_bind (csub_ok (by rw [hl, hb.1]; omega))] at h1
    rw [Render.write_u16_at, Render.write_u16_at_r _ _ _ (by
      show _ ≤ _
      rw [OutBuf.append_capacity hfit]
      exact hfit), if_pos (by rw [be16_length, hl, hb.1]; omega)] at h1
    simp at h1

/-- so 65536 octets of data are rendered without error as a record whose RDLENGTH says 0 -/
theorem c38_length_violated (d backing : List UInt8) (hd : d.length = 65536) (hc : 65538 < backing.length) :
    RData.Fits ⟨.OPT, [.bytes d]⟩ ∧
    ∃ r', RRset.rdata_to_wire ⟨.OPT, [.bytes d]⟩ (Render.new backing) = (.ok (), r') ∧ r'.data = [0, 0] ++ d := by
  refine ⟨⟨_, rfl, trivial, trivial⟩, ?_⟩
  obtain ⟨r', h1, h2⟩ := opt_data_written d backing (by omega)
  exact ⟨r', h1, by rw [h2, hd]; rfl⟩

/-- in a buffer of at most 65535 octets (the largest DNS message) data whose character-strings fit is never corrupted: either
`Err`, or the RDLENGTH is exact and the data reads back. Missing: character-strings over 255 octets and larger buffers, see
`c38_string_violated`, `c38_length_violated`. -/
theorem c38_rejected_partial {backing : List UInt8} {h : Hist} (hr : Reached backing h) (rd : RData) (hf : rd.Fits)
    (hcap : backing.length ≤ 65535) :
    (RRset.rdata_to_wire rd h.r).1 = .err ∨
    ∃ body : List UInt8, (RRset.rdata_to_wire rd h.r).1 = .ok () ∧ body.length ≤ 65535 ∧
      (RRset.rdata_to_wire rd h.r).2.data = h.r.data ++ be16 (UInt16.ofNat body.length) ++ body ∧
      ∀ tail, RData.from_wire rd.kind (UInt16.ofNat body.length) ⟨(RRset.rdata_to_wire rd h.r).2.data ++ tail, h.r.data.length + 2⟩ =
        (.ok rd, ⟨(RRset.rdata_to_wire rd h.r).2.data ++ tail, (RRset.rdata_to_wire rd h.r).2.data.length⟩) := by
  have hcap' := hr.capacity
  obtain ⟨g, hi, _⟩ := hr.hinv.inv
  have hl : h.r.data.length = h.r.buffer.len := OutBuf.contents_length hi.buf
  rcases emits_rdlen (emits_rdata hf) h.r g hi with ⟨r', out, h1, h2, body, g0, rfl, h3, h4⟩ | ⟨r', h1, h2⟩
  · have hfit := h2.fit
    rw [List.length_append, be16_length, hcap'] at hfit
    have hd : r'.data = h.r.data ++ be16 (UInt16.ofNat body.length) ++ body := by rw [h2.data, List.append_assoc]
    refine Or.inr ⟨body, by rw [h1], by omega, by rw [h1]; exact hd, fun tail => ?_⟩
    rw [h1]
    simp only
    have := (h4 (by omega)).le h3 (r'.data ++ tail) (Mem.le_append (by exact h2.inv.mem) tail)
      (by rw [hd]; simp only [List.length_append, be16_length]; omega)
    rw [hl, this]
    rw [hd]; simp only [List.length_append, be16_length, hl]
  · exact Or.inl (by rw [h1])

example : ∃ d : List UInt8, d.length = 65536 := ⟨List.replicate 65536 0, List.length_replicate⟩

/-! ## C39 -/

/-- decode `n` records one after the other with `RRset::from_wire`, as `Section::from_wire` does (response.rs:46-48) -/
def decodeRecords : Nat → St InBuf (List RRset)
  | 0 => pure []
  | n + 1 => do
    let x ← RRset.from_wire
    let xs ← decodeRecords n
    pure (x :: xs)

theorem decodeRecords_eq (n : Nat) : decodeRecords n = readRRs n := by
  induction n with
  | zero => rfl
  | succ n ih => simp only [decodeRecords, readRRs, ih]

/-- an RRset with data: the records read back one by one -/
theorem c39_roundtrip {backing : List UInt8} {h : Hist} (hr : Reached backing h) (s : RRset) (ls : List Label)
    (hls : ValidName ls) (hn : s.name = Name.ofLabels ls) (ht : RRType.new s.typ.as_u16 = s.typ) (hc : RRClass.new s.class_.to_u16 = s.class_)
    (hne : s.rdatas ≠ []) (hd : ∀ rd ∈ s.rdatas, rd.kind = s.typ ∧ rd.Fits ∧ rd.SizeOK) :
    WritesBack h.r s.to_wire (decodeRecords s.rdatas.length) (s.rdatas.map fun rd => ⟨s.name, s.typ, s.class_, s.ttl, [rd]⟩) := by
  obtain ⟨g, hi, _⟩ := hr.hinv.inv
  rw [decodeRecords_eq]
  have : s.to_wire = s.rrs_to_wire s.rdatas := by unfold RRset.to_wire; rw [if_neg hne]
  rw [this]
  exact (emits_rrs ⟨ls, hls, hn⟩ ht hc s.rdatas hd).writesBack hi

/-- an OPT record without data -/
theorem c39_roundtrip_empty {backing : List UInt8} {h : Hist} (hr : Reached backing h) (s : RRset) (ls : List Label)
    (hls : ValidName ls) (hn : s.name = Name.ofLabels ls) (ht : s.typ = .OPT) (hc : RRClass.new s.class_.to_u16 = s.class_)
    (hne : s.rdatas = []) : WritesBack h.r s.to_wire RRset.from_wire s := by
  obtain ⟨g, hi, _⟩ := hr.hinv.inv
  exact (emits_rr_empty ⟨ls, hls, hn⟩ ht hc hne).writesBack hi

/-- two MX records of `d.b` -/
def sampleSet : RRset := ⟨Name.ofLabels [[100], [98]], .MX, .IN, 300, [sampleMX, { sampleMX with fields := [.u16 20, .name (Name.ofLabels [[110]])] }]⟩

example : (∀ rd ∈ sampleSet.rdatas, rd.kind = sampleSet.typ ∧ rd.Fits ∧ rd.SizeOK) ∧ sampleSet.rdatas ≠ [] := by
  refine ⟨?_, by simp [sampleSet]⟩
  intro rd h
  simp only [sampleSet, List.mem_cons, List.not_mem_nil, or_false] at h
  rcases h with rfl | rfl
  · exact ⟨rfl, sampleMX_fits, by unfold RData.SizeOK; decide +kernel⟩
  · exact ⟨rfl, ⟨_, rfl, trivial, ⟨[[110]], by decide, rfl⟩, trivial⟩, by unfold RData.SizeOK; decide +kernel⟩
example : (sampleSet.to_wire (Render.new (List.replicate 80 0))).1 = .ok () := by decide +kernel

/-! ## C40 -/

/-- a valid owner and data that fits; the names in 4 and more data, which `==` sorts, are ASCII -/
def RRset.Good (s : RRset) : Prop := (∃ ls, ValidName ls ∧ s.name = Name.ofLabels ls) ∧ ∀ rd ∈ s.rdatas, rd.Fits ∧ (4 ≤ s.rdatas.length → rd.Ascii)

/-- no data twice -/
def NoRepeat (l : List RData) : Prop := l.Pairwise fun a b => ¬ a.Same b

theorem same_rrset_spec {s t : RRset} (hs : s.Good) (ht : t.Good) :
    ∃ b, s.is_same_rrset t = .ok b ∧ (b = true ↔ s.SameOwner t) := by
  obtain ⟨la, h1, e1⟩ := hs.1
  obtain ⟨lb, h2, e2⟩ := ht.1
  unfold RRset.is_same_rrset RRset.SameOwner
  by_cases h : s.typ = t.typ
  · rw [if_pos h]
    obtain ⟨h3, h4⟩ := eq_field .name (.name s.name) (.name t.name) ⟨la, h1, e1⟩ ⟨lb, h2, e2⟩
    exact ⟨_, h3, by rw [decide_eq_true_eq, h4]; simp [h]⟩
  · rw [if_neg h]; exact ⟨false, rfl, by simp [h]⟩

/-- `==` decides equality of owner, of type, and of the keys: as sets of equal count for less than 4 data, else up to order -/
theorem rrset_eq_spec {m : Build} {sort : List RData → Res (List RData)} (hsort : SortSpec m sort) {s t : RRset} (hs : s.Good) (ht : t.Good) :
    ∃ b, RRset.eq sort s t = .ok b ∧ (b = true ↔ s.SameOwner t ∧ s.rdatas.length = t.rdatas.length ∧
      (s.rdatas.length < 4 → s.rdatas.map RData.key ⊆ t.rdatas.map RData.key) ∧ (4 ≤ s.rdatas.length → SameData s.rdatas t.rdatas)) := by
  obtain ⟨o, h1, h2⟩ := same_rrset_spec hs ht
  unfold RRset.eq
  rw [h1, Res.bind_ok]
  by_cases ho : o = true
  · subst ho
    have hso := h2.mp rfl
    rw [if_pos rfl]
    by_cases hl : s.rdatas.length = t.rdatas.length
    · rw [if_neg (by simp [hl])]
      by_cases h4 : s.rdatas.length < 4
      · rw [if_pos h4, allIn_spec _ _ (fun b hb => (hs.2 b hb).1) (fun b hb => (ht.2 b hb).1)]
        exact ⟨_, rfl, by rw [decide_eq_true_eq]; exact ⟨fun h => ⟨hso, hl, fun _ => h, fun h => absurd h (by omega)⟩, fun h => h.2.2.1 h4⟩⟩
      · rw [if_neg h4]
        obtain ⟨a, a1, a2, a3⟩ := sorted_spec hsort _ (fun rd h => ⟨(hs.2 rd h).1, (hs.2 rd h).2 (by omega)⟩)
        obtain ⟨b, b1, b2, b3⟩ := sorted_spec hsort _ (fun rd h => ⟨(ht.2 rd h).1, (ht.2 rd h).2 (by omega)⟩)
        rw [a1, Res.bind_ok, b1, Res.bind_ok, eqList_spec _ _ (fun x hx => (hs.2 x (a2.subset hx)).1) (fun x hx => (ht.2 x (b2.subset hx)).1)]
        refine ⟨_, rfl, ?_⟩
        rw [decide_eq_true_eq]
        constructor
        · intro h
          refine ⟨hso, hl, fun h => absurd h h4, fun _ => ?_⟩
          rw [sameData_key _ _ (fun b hb => (hs.2 b hb).1) (fun b hb => (ht.2 b hb).1)]
          exact (a2.map _).symm.trans (h ▸ b2.map _)
        · rintro ⟨-, -, -, h⟩
          have h := (sameData_key _ _ (fun b hb => (hs.2 b hb).1) (fun b hb => (ht.2 b hb).1)).mp (h (by omega))
          have hp : (a.map RData.key).Perm (b.map RData.key) := (a2.map _).trans (h.trans (b2.map _).symm)
          refine List.Perm.eq_of_pairwise (le := fun a b => cmpK a b ≠ .gt) ?_ a3 b3 hp
          intro x y _ _ hx hy
          have hsw := lawfulK.swap x y
          match hc : cmpK x y with
          | .eq => exact (lawfulK.eq_iff _ _).mp hc
          | .gt => exact absurd hc hx
          | .lt => rw [hc] at hsw; exact absurd hsw hy
    · rw [if_pos hl]
      exact ⟨false, rfl, by simp [hl]⟩
  · obtain rfl : o = false := by simpa using ho
    rw [if_neg (by simp)]
    exact ⟨false, rfl, by simp at h2; simp [h2]⟩

/-- `==` answers (no panic) for every two sets with valid owners and fitting data -/
theorem c40_total {m : Build} {sort : List RData → Res (List RData)} (hsort : SortSpec m sort) {s t : RRset} (hs : s.Good) (ht : t.Good) :
    ∃ b, RRset.eq sort s t = .ok b := let ⟨b, h, _⟩ := rrset_eq_spec hsort hs ht; ⟨b, h⟩

theorem rrset_eq_true {m : Build} {sort : List RData → Res (List RData)} (hsort : SortSpec m sort) {s t : RRset} (hs : s.Good) (ht : t.Good) :
    RRset.eq sort s t = .ok true ↔ s.SameOwner t ∧ s.rdatas.length = t.rdatas.length ∧
      (s.rdatas.length < 4 → s.rdatas.map RData.key ⊆ t.rdatas.map RData.key) ∧ (4 ≤ s.rdatas.length → SameData s.rdatas t.rdatas) := by
  obtain ⟨b, h1, h2⟩ := rrset_eq_spec hsort hs ht
  rw [h1, ← h2]; simp

/-- exactly what `==` decides: owner, type and number of data are the same; each of fewer than 4 data occurs on the other side, 4 and more are the same up to order -/
theorem c40_exact {m : Build} {sort : List RData → Res (List RData)} (hsort : SortSpec m sort) {s t : RRset} (hs : s.Good) (ht : t.Good) :
    RRset.eq sort s t = .ok true ↔ s.SameOwner t ∧ s.rdatas.length = t.rdatas.length ∧
      if s.rdatas.length < 4 then ∀ a ∈ s.rdatas, ∃ b ∈ t.rdatas, a.Same b else SameData s.rdatas t.rdatas := by
  rw [rrset_eq_true hsort hs ht]
  refine and_congr_right fun _ => and_congr_right fun _ => ?_
  by_cases h4 : s.rdatas.length < 4
  · rw [if_pos h4]
    constructor
    · intro h a ha
      obtain ⟨b, hb, e⟩ := List.mem_map.1 (h.1 h4 (List.mem_map_of_mem ha))
      exact ⟨b, hb, (rdata_eq (hs.2 a ha).1 (ht.2 b hb).1).2.2 e.symm⟩
    · intro h
      refine ⟨fun _ k hk => ?_, fun h => absurd h (by omega)⟩
      obtain ⟨a, ha, rfl⟩ := List.mem_map.1 hk
      obtain ⟨b, hb, e⟩ := h a ha
      rw [(rdata_eq (hs.2 a ha).1 (ht.2 b hb).1).2.1 e]
      exact List.mem_map_of_mem hb
  · rw [if_neg h4]
    exact ⟨fun h => h.2 (by omega), fun h => ⟨fun h => absurd h h4, fun _ => h⟩⟩

theorem sameData_length {a b : List RData} (h : SameData a b) : a.length = b.length := by
  obtain ⟨l, h1, h2⟩ := h
  rw [← h1.length_eq]
  clear h1
  induction h2 with
  | nil => rfl
  | cons _ _ ih => simp [ih]

/-- sets with the same owner, type and data up to order are equal -/
theorem c40_up_to_order {m : Build} {sort : List RData → Res (List RData)} (hsort : SortSpec m sort) {s t : RRset} (hs : s.Good) (ht : t.Good)
    (ho : s.SameOwner t) (hd : SameData s.rdatas t.rdatas) : RRset.eq sort s t = .ok true := by
  rw [rrset_eq_true hsort hs ht]
  refine ⟨ho, sameData_length hd, fun _ => ?_, fun _ => hd⟩
  exact ((sameData_key _ _ (fun b hb => (hs.2 b hb).1) (fun b hb => (ht.2 b hb).1)).mp hd).subset

/-- and nothing else is, unless a set of less than 4 data repeats one (then `==` is wrong, see `c40_violated`) -/
theorem c40_iff_partial {m : Build} {sort : List RData → Res (List RData)} (hsort : SortSpec m sort) {s t : RRset} (hs : s.Good) (ht : t.Good)
    (hn : NoRepeat s.rdatas ∨ 4 ≤ s.rdatas.length) :
    RRset.eq sort s t = .ok true ↔ s.SameOwner t ∧ SameData s.rdatas t.rdatas := by
  refine ⟨fun h => ?_, fun h => c40_up_to_order hsort hs ht h.1 h.2⟩
  obtain ⟨h1, h2, h3, h4⟩ := (rrset_eq_true hsort hs ht).mp h
  refine ⟨h1, ?_⟩
  by_cases hl : 4 ≤ s.rdatas.length
  · exact h4 hl
  · have hn := hn.resolve_right hl
    rw [sameData_key _ _ (fun b hb => (hs.2 b hb).1) (fun b hb => (ht.2 b hb).1)]
    have hnd : (s.rdatas.map RData.key).Nodup := by
      rw [List.Nodup, List.pairwise_map]
      refine hn.imp_of_mem fun {a b} ha hb hab he => hab ?_
      exact (rdata_eq (hs.2 a ha).1 (hs.2 b hb).1).2.mpr he
    exact (List.subperm_of_subset hnd (h3 (by omega))).perm_of_length_le (by simp [h2])

theorem fieldSame_refl_name {n : Name} (h : n.WF) : FieldSame (.name n) (.name n) := by
  obtain ⟨ls, h1, h2⟩ := h; exact ⟨ls, ls, h1, h1, h2, h2, rfl⟩

theorem c40_refl {m : Build} {sort : List RData → Res (List RData)} (hsort : SortSpec m sort) {s : RRset} (hs : s.Good) :
    RRset.eq sort s s = .ok true := by
  refine c40_up_to_order hsort hs hs ⟨rfl, fieldSame_refl_name hs.1⟩ ?_
  rw [sameData_key _ _ (fun b hb => (hs.2 b hb).1) (fun b hb => (hs.2 b hb).1)]

theorem sameOwner_symm {s t : RRset} (h : s.SameOwner t) : t.SameOwner s := by
  obtain ⟨h1, a, b, h2, h3, h4, h5, h6⟩ := h
  exact ⟨h1.symm, b, a, h3, h2, h5, h4, h6.symm⟩

/-- symmetry; missing: sets of less than 4 data that repeat one -/
theorem c40_symm_partial {m : Build} {sort : List RData → Res (List RData)} (hsort : SortSpec m sort) {s t : RRset} (hs : s.Good) (ht : t.Good)
    (hn : NoRepeat s.rdatas ∨ 4 ≤ s.rdatas.length) (h : RRset.eq sort s t = .ok true) : RRset.eq sort t s = .ok true := by
  obtain ⟨h1, h2⟩ := (c40_iff_partial hsort hs ht hn).mp h
  refine c40_up_to_order hsort ht hs (sameOwner_symm h1) ?_
  rw [sameData_key _ _ (fun b hb => (hs.2 b hb).1) (fun b hb => (ht.2 b hb).1)] at h2
  rw [sameData_key _ _ (fun b hb => (ht.2 b hb).1) (fun b hb => (hs.2 b hb).1)]
  exact h2.symm

/-- transitivity -/
theorem c40_trans {m : Build} {sort : List RData → Res (List RData)} (hsort : SortSpec m sort) {s t u : RRset} (hs : s.Good) (ht : t.Good)
    (hu : u.Good) (h : RRset.eq sort s t = .ok true) (h' : RRset.eq sort t u = .ok true) : RRset.eq sort s u = .ok true := by
  obtain ⟨⟨e1, a, b, va, vb, na, nb, sab⟩, h2, h3, h4⟩ := (rrset_eq_true hsort hs ht).mp h
  obtain ⟨⟨e2, b', c, vb', vc, nb', nc, sbc⟩, g2, g3, g4⟩ := (rrset_eq_true hsort ht hu).mp h'
  obtain rfl : b = b' := Name.ofLabels_inj vb vb' (nb.symm.trans nb')
  rw [rrset_eq_true hsort hs hu]
  refine ⟨⟨e1.trans e2, a, c, va, vc, na, nc, sab.trans sbc⟩, h2.trans g2, fun hl => ?_, fun hl => ?_⟩
  · exact fun x hx => g3 (by omega) (h3 hl hx)
  · have k1 := h4 hl
    have k2 := g4 (by omega)
    rw [sameData_key _ _ (fun b hb => (hs.2 b hb).1) (fun b hb => (ht.2 b hb).1)] at k1
    rw [sameData_key _ _ (fun b hb => (ht.2 b hb).1) (fun b hb => (hu.2 b hb).1)] at k2
    rw [sameData_key _ _ (fun b hb => (hs.2 b hb).1) (fun b hb => (hu.2 b hb).1)]
    exact k1.trans k2

/-- `==` is not symmetric: `[x, x] == [x, y]` but not the other way round -/
theorem c40_violated (sort : List RData → Res (List RData)) :
    ∃ s t : RRset, s.Good ∧ t.Good ∧ RRset.eq sort s t = .ok true ∧ RRset.eq sort t s = .ok false := by
  have hg : ∀ a b : UInt8, RRset.Good ⟨Name.ofLabels [[97]], .A, .IN, 0, [⟨.A, [.ip [1, 1, 1, a]]⟩, ⟨.A, [.ip [1, 1, 1, b]]⟩]⟩ := by
    intro a b
    refine ⟨⟨[[97]], by decide, rfl⟩, ?_⟩
    intro rd hrd
    simp only [List.mem_cons, List.not_mem_nil, or_false] at hrd
    rcases hrd with rfl | rfl <;> exact ⟨⟨_, rfl, rfl, trivial⟩, fun _ v hv => by
      simp only [List.mem_singleton] at hv; subst hv; trivial⟩
  exact ⟨_, _, hg 1 1, hg 1 2, by rfl, by rfl⟩

/-- two MX data with names -/
def goodSet : RRset := ⟨Name.ofLabels [[65]], .MX, .IN, 5, [sampleMX, ⟨.MX, [.u16 1, .name (Name.ofLabels [[88]])]⟩]⟩

theorem goodSet_good : goodSet.Good := by
  refine ⟨⟨[[65]], by decide, rfl⟩, ?_⟩
  intro rd hrd
  simp only [goodSet, List.mem_cons, List.not_mem_nil, or_false] at hrd
  rcases hrd with rfl | rfl
  · refine ⟨sampleMX_fits, fun _ v hv => ?_⟩
    simp only [sampleMX, List.mem_cons, List.not_mem_nil, or_false] at hv
    rcases hv with rfl | rfl
    · trivial
    · exact ⟨[[109], [98]], by decide, rfl, by decide⟩
  · refine ⟨⟨_, rfl, trivial, ⟨[[88]], by decide, rfl⟩, trivial⟩, fun _ v hv => ?_⟩
    simp only [List.mem_cons, List.not_mem_nil, or_false] at hv
    rcases hv with rfl | rfl
    · trivial
    · exact ⟨[[88]], by decide, rfl, by decide⟩

example : goodSet.Good ∧ NoRepeat goodSet.rdatas := by
  refine ⟨goodSet_good, ?_⟩
  unfold NoRepeat goodSet sampleMX
  rw [List.pairwise_cons]
  refine ⟨fun b hb => ?_, List.pairwise_singleton _ _⟩
  rw [List.mem_singleton] at hb
  subst hb
  rintro ⟨_, h⟩
  cases h with
  | cons h _ => simp [FieldSame] at h

end R53
