import Verif.Proofs.Bounded
import Verif.Proofs.Decode2
/-!
# What is accepted can be sent again
-/
namespace R53

theorem FieldAt.size {c : Codec} {v : FieldVal} {msg : List UInt8} {p e : Nat} (hp : p ≤ msg.length) (h : FieldAt c v msg p e) :
    v.size c ≤ e - p + (if c = .name then 254 else 0) ∧ (p < e → 1 ≤ v.size c) := by
  cases v with
  | name n =>
    obtain ⟨rfl, h⟩ := h
    have hi := exact_name.inside hp h
    obtain ⟨ls, hd, hv, rfl⟩ := h
    have h1 : (Name.ofLabels ls).raw.length ≤ 255 := by simpa [Name.ofLabels, nameWire] using hv.2
    have h2 : 1 ≤ (Name.ofLabels ls).raw.length := by simp [Name.ofLabels, nameWire]
    have h3 : p < e := by
      have := Name.from_wire_decodes (b := ⟨msg, p⟩) hd hv.2
      rcases safe_name ⟨msg, p⟩ hp with ⟨a, e', k1, _, _, _, k2⟩ | ⟨b', k1, _⟩
      · rw [this] at k1
        simp only [Prod.mk.injEq, Res.ok.injEq, InBuf.mk.injEq] at k1
        obtain ⟨_, _, rfl⟩ := k1
        exact k2.2.1
      · rw [this] at k1; simp at k1
    simp only [FieldVal.size, if_true]
    omega
  | ip o =>
    obtain ⟨hc, h⟩ := h
    have := h.1
    simp only [FieldVal.size]; omega
  | u8 v => have := h.2.1; simp only [FieldVal.size, List.length_cons, List.length_nil] at *; omega
  | u16 v => have := h.2.1; simp only [FieldVal.size, be16_length] at *; omega
  | u32 v => have := h.2.1; rw [show (be32 v).length = 4 from rfl] at this; simp only [FieldVal.size]; omega
  | rrtype t =>
    obtain ⟨_, w, _, h⟩ := h
    have := h.1
    simp only [FieldVal.size, be16_length] at *; omega
  | text ds =>
    have h1 := h.2.2.1
    have h2 : (ds.flatMap fun s => UInt8.ofNat s.length :: s).length = (ds.map fun d => d.length + 1).sum := by
      rw [List.length_flatMap]; simp
    rw [h2] at h1
    simp only [FieldVal.size]; omega
  | bytes d =>
    rcases h with ⟨rfl, _, h⟩ | ⟨rfl, h⟩
    · have := h.1
      simp only [List.length_cons] at this
      simp only [FieldVal.size]; omega
    · have := h.1
      simp only [FieldVal.size]; omega

def namesIn (cs : List (Codec × Disp)) : Nat := (cs.filter fun c => decide (c.1 = .name)).length

theorem FieldsAt.size {cs : List (Codec × Disp)} {vs : List FieldVal} {msg : List UInt8} {p e : Nat} (hp : p ≤ msg.length) (h : FieldsAt cs vs msg p e) :
    fieldsSize cs vs ≤ e - p + 254 * namesIn cs ∧ (p < e → 1 ≤ fieldsSize cs vs) := by
  induction cs generalizing vs p with
  | nil =>
    cases vs with
    | nil => have h : e = p := h; simp only [fieldsSize]; omega
    | cons _ _ => exact h.elim
  | cons c cs ih =>
    cases vs with
    | nil => exact h.elim
    | cons v vs =>
      obtain ⟨q, h1, h2⟩ := h
      have hq := h1.inside hp
      have s1 := h1.size hp
      have s2 := ih hq.2 h2
      have hi := FieldsAt.inside hq.2 h2
      have hn : 254 * namesIn (c :: cs) = (if c.1 = .name then 254 else 0) + 254 * namesIn cs := by
        unfold namesIn
        rw [List.filter_cons]
        split
        · rename_i h; rw [if_pos (by simpa using h), List.length_cons]; omega
        · rename_i h; rw [if_neg (by simpa using h)]; omega
      simp only [fieldsSize]
      rw [hn]
      generalize (if c.1 = Codec.name then 254 else 0) = k at s1 ⊢
      refine ⟨by omega, fun hlt => ?_⟩
      by_cases hpq : p < q
      · have := s1.2 hpq; omega
      · have := s2.2 (by omega); omega

theorem schema_names (t : RRType) (cs : List (Codec × Disp)) (h : schema t = some cs) : namesIn cs ≤ 2 := by
  cases t <;> simp only [schema, Option.some.injEq, reduceCtorEq] at h <;> subst h <;> decide

theorem DataAt.size {rd : RData} {msg : List UInt8} {p e : Nat} (hp : p ≤ msg.length) (h : DataAt rd msg p e) :
    rd.size ≤ e - p + 508 ∧ (p < e → 1 ≤ rd.size) := by
  obtain ⟨fs, h1, h2⟩ := h
  obtain ⟨cs, hs, _⟩ := layout_shape h1
  have := ((fieldsAt_layout hs rd.fields msg p e).mpr ⟨fs, h1, h2⟩).size hp
  have hn := schema_names _ _ hs
  unfold RData.size
  rw [hs]
  simp only
  omega

theorem RecordAt.sizes {s : RRset} {msg : List UInt8} {p e : Nat} (hp : p ≤ msg.length) (h : RecordAt s msg p e) :
    ∀ rd ∈ s.rdatas, 1 ≤ rd.size ∧ (msg.length ≤ 65000 → rd.size ≤ 65535) := by
  have hi := exact_record.inside hp h
  obtain ⟨q, t, c, len, h1, h2, h3, h4, rfl, ⟨_, _, h5⟩ | ⟨h5, rd, h6, h7, h8⟩⟩ := h
  · simp [h5]
  · intro x hx
    rw [h6, List.mem_singleton] at hx
    subst hx
    have hq := exact_name.inside hp h1
    have hsz := h8.size (by omega)
    have hl : len.toNat ≠ 0 := fun h => h5 (UInt16.toNat_inj.mp (by simpa using h))
    have := hsz.2 (by omega)
    omega

theorem RecordsAt.sizes {recs : List RRset} {msg : List UInt8} {p e : Nat} (hp : p ≤ msg.length) (h : RecordsAt recs msg p e) :
    ∀ s ∈ recs, ∀ rd ∈ s.rdatas, 1 ≤ rd.size ∧ (msg.length ≤ 65000 → rd.size ≤ 65535) := by
  induction recs generalizing p with
  | nil => simp
  | cons s ss ih =>
    obtain ⟨q, h1, h2⟩ := h
    intro x hx
    rcases List.mem_cons.mp hx with rfl | hx
    · exact h1.sizes hp
    · exact ih (exact_record.inside hp h1).2 h2 x hx

theorem Merges.data {chunk : List RRset} {s : RRset} (h : Merges chunk s) : ∀ rd ∈ s.rdatas, ∃ x ∈ chunk, rd ∈ x.rdatas := by
  obtain ⟨f, r, rfl, _, rfl⟩ := h
  intro rd hrd
  exact List.mem_flatMap.mp hrd

theorem Grouped.data {recs sets : List RRset} (h : Grouped recs sets) : ∀ s ∈ sets, ∀ rd ∈ s.rdatas, ∃ x ∈ recs, rd ∈ x.rdatas := by
  obtain ⟨⟨chunks, rfl, hc⟩, hn⟩ := h
  clear hn
  intro s hs rd hrd
  induction hc with
  | nil => simp at hs
  | cons hm _ ih =>
    rcases List.mem_cons.mp hs with rfl | hs
    · obtain ⟨x, hx, hr⟩ := hm.data rd hrd
      exact ⟨x, by simp [hx], hr⟩
    · obtain ⟨x, hx, hr⟩ := ih hs
      exact ⟨x, by simp only [List.flatten_cons, List.mem_append]; exact Or.inr hx, hr⟩

theorem Grouped.head {recs sets : List RRset} (h : Grouped recs sets) {s : RRset} (hs : sets.head? = some s) : ∃ f, recs.head? = some f ∧ s.typ = f.typ := by
  obtain ⟨⟨chunks, rfl, hc⟩, _⟩ := h
  cases hc with
  | nil => simp at hs
  | cons hm _ =>
    obtain ⟨f, r, rfl, _, rfl⟩ := hm
    simp only [List.head?_cons, Option.some.injEq] at hs
    subst hs
    exact ⟨f, by simp, rfl⟩

theorem Grouped.ne_nil {recs sets : List RRset} (h : Grouped recs sets) (hr : recs ≠ []) : sets ≠ [] := by
  obtain ⟨⟨chunks, rfl, hc⟩, _⟩ := h
  rintro rfl
  cases hc
  exact hr rfl

/-- what is read fits -/
theorem SectionAt.fitsIn {L : Nat} {t : SectionType} {n : UInt16} {s : Section} {msg : List UInt8} {p e : Nat} (hp : p ≤ msg.length)
    (h : SectionAt t n.toNat s msg p e) (hm : L ≤ 65535 ∨ msg.length ≤ 65000) : SectionFitsIn L t s ∧ n.toNat = (Section.records s).length := by
  have hr := (exact_section n t).of hp h
  have hcount := section_count (b := ⟨msg, p⟩) hp hr
  refine ⟨?_, hcount.1.symm⟩
  rcases h with ⟨_, rfl, _⟩ | ⟨first, rest, sets, h1, h2, h3, rfl, h4, h5⟩
  · trivial
  · have hdec : ∀ x ∈ sets, x.Decoded := by
      rcases safe_section n t ⟨msg, p⟩ hp with ⟨a, e', k1, _, _, _, k2, k3⟩ | ⟨b', k1, _⟩
      · rw [hr] at k1
        simp only [Prod.mk.injEq, Res.ok.injEq] at k1
        obtain ⟨rfl, _⟩ := k1
        exact (k3.2 sets rfl).2
      · rw [hr] at k1; simp at k1
    have hsz := h2.sizes hp
    refine ⟨h3.ne_nil (by simp), fun x hx => ?_, h3.2, fun x hx ho => ?_, hcount.2 sets rfl⟩
    · have hd := hdec x hx
      refine ⟨hd.name, hd.typ, hd.class_, fun rd hrd => ⟨(hd.data rd hrd).1, (hd.data rd hrd).2, ?_⟩, hd.empty⟩
      obtain ⟨y, hy, hy2⟩ := h3.data x hx rd hrd
      have hz := hsz y hy rd hy2
      exact ⟨hz.1, hm.imp id hz.2⟩
    · obtain ⟨f, k1, k2⟩ := h3.head hx
      simp only [List.head?_cons, Option.some.injEq] at k1
      subst k1
      exact h4 (k2 ▸ ho)

theorem mask_mask (w : UInt16) : w &&& 0x87b0 &&& 0x87b0 = w &&& 0x87b0 := by
  rw [UInt16.and_assoc]; rfl

theorem MessageAt.fitsIn {L : Nat} {m : Response} {msg : List UInt8} (h : MessageAt m msg) (hm : L ≤ 65535 ∨ msg.length ≤ 65000) : m.FitsIn L := by
  obtain ⟨p1, p2, p3, e, h0, h1, h2, h3, h4, h5⟩ := h
  have l0 := (exact_header.inside (Nat.zero_le _) h0).2
  have l1 := (exact_question.inside l0 h2).2
  have l2 := ((exact_section _ _).inside l1 h3).2
  have l3 := ((exact_section _ _).inside l2 h4).2
  obtain ⟨a1, a2⟩ := h3.fitsIn l1 hm
  obtain ⟨b1, b2⟩ := h4.fitsIn l2 hm
  obtain ⟨c1, c2⟩ := h5.fitsIn l3 hm
  obtain ⟨q1, t, c, k1, _, k3, k4⟩ := h2
  obtain ⟨w, _, _, _, hf⟩ := h0
  refine ⟨⟨?_, ?_, ?_⟩, a1, b1, c1, ?_, h1, a2, b2, c2⟩
  · obtain ⟨ls, _, hv, hn⟩ := k1; exact ⟨ls, hv, hn⟩
  · exact RRType.new_as_u16 t _ k3
  · rw [k4, RRClass.to_u16_new]
  · rw [hf, mask_mask]

theorem RRset.FitsIn.fits {L : Nat} {s : RRset} (h : s.FitsIn L) (hL : 65535 < L ∨ ∀ rd ∈ s.rdatas, rd.size ≤ 65535) : s.Fits :=
  ⟨h.name, h.typ, h.class_, fun rd hrd => ⟨(h.data rd hrd).1, (h.data rd hrd).2.1, (h.data rd hrd).2.2.1,
    (h.data rd hrd).2.2.2.elim (fun h1 => hL.elim (fun h => by omega) fun h => h rd hrd) id⟩, h.empty⟩

theorem SectionFitsIn.fits {L : Nat} {t : SectionType} {s : Section} (h : SectionFitsIn L t s)
    (hL : 65535 < L ∨ ∀ sets, s = some sets → ∀ x ∈ sets, ∀ rd ∈ x.rdatas, rd.size ≤ 65535) : SectionFits t s := by
  match s, h with
  | none, _ => trivial
  | some sets, ⟨h1, h2, h3⟩ => exact ⟨h1, fun x hx => (h2 x hx).fits (hL.imp id fun h => h sets rfl x hx), h3⟩

theorem Response.FitsIn.fits {L : Nat} {m : Response} (h : m.FitsIn L)
    (hL : 65535 < L ∨ ∀ t sets, m.section_ t = some sets → ∀ x ∈ sets, ∀ rd ∈ x.rdatas, rd.size ≤ 65535) : m.Fits :=
  ⟨h.question, h.answer.fits (hL.imp id fun h => h .Answer), h.authority.fits (hL.imp id fun h => h .Authority),
    h.additional.fits (hL.imp id fun h => h .Additional), h.flag, h.qd, h.an, h.ns, h.ar⟩

theorem MessageAt.fits {m : Response} {msg : List UInt8} (h : MessageAt m msg) (hm : msg.length ≤ 65000) : m.Fits :=
  (h.fitsIn (L := 65536) (Or.inr hm)).fits (Or.inl (by omega))

end R53
