import Verif.Proofs.Decode
/-!
# Exact decoding of records, sections and messages
-/
namespace R53

theorem exact_rrtype : Exact RRType.from_wire fun t msg p e => ∃ v, t = RRType.new v ∧ OctetsAt (be16 v) msg p e :=
  (exact_u16.bind fun v => Exact.pure (RRType.new v)).congr fun t msg p e _ =>
    ⟨fun ⟨v, _, h1, h2, h3⟩ => ⟨v, h2, h3 ▸ h1⟩, fun ⟨v, h1, h2⟩ => ⟨v, e, h2, h1, rfl⟩⟩

theorem exact_rrclass : Exact RRClass.from_wire fun t msg p e => ∃ v, t = RRClass.new v ∧ OctetsAt (be16 v) msg p e :=
  (exact_u16.bind fun v => Exact.pure (RRClass.new v)).congr fun t msg p e _ =>
    ⟨fun ⟨v, _, h1, h2, h3⟩ => ⟨v, h2, h3 ▸ h1⟩, fun ⟨v, h1, h2⟩ => ⟨v, e, h2, h1, rfl⟩⟩

theorem exact_question : Exact Question.from_wire QuestionAt := by
  unfold Question.from_wire
  refine (exact_name.bind fun n => exact_rrtype.bind fun t => exact_rrclass.bind fun c => Exact.pure (⟨n, t, c⟩ : Question)).congr ?_
  rintro ⟨n, t, c⟩ msg p e hp
  constructor
  · rintro ⟨n', q1, h1, t', q2, ⟨v, rfl, h2⟩, c', q3, ⟨w, rfl, h3⟩, h4, rfl⟩
    simp only [Question.mk.injEq] at h4
    obtain ⟨rfl, rfl, rfl⟩ := h4
    exact ⟨q1, v, w, h1, OctetsAt.append.mpr ⟨q2, h2, h3⟩, rfl, rfl⟩
  · rintro ⟨q1, v, w, h1, h2, h3, h4⟩
    obtain ⟨q2, h2, h5⟩ := OctetsAt.append.mp h2
    exact ⟨n, q1, h1, t, q2, ⟨v, h3, h2⟩, c, e, ⟨w, h4, h5⟩, rfl, rfl⟩

theorem opcode_bits (w : UInt16) : ((w &&& OPCODE_MASK) >>> OPCODE_SHIFT).toUInt8 = UInt8.ofNat (w.toNat / 2048 % 16) := by
  apply UInt8.toNat_inj.mp
  simp only [OPCODE_MASK, OPCODE_SHIFT, UInt16.toNat_toUInt8, UInt16.toNat_shiftRight, UInt16.toNat_and, UInt8.toNat_ofNat']
  rw [show UInt16.toNat 11 % 16 = 11 from rfl, show UInt16.toNat 0x7800 = 0x7800 from rfl, Nat.shiftRight_and_distrib,
    show (0x7800 >>> 11 : Nat) = 2 ^ 4 - 1 from rfl, Nat.and_two_pow_sub_one_eq_mod, Nat.shiftRight_eq_div_pow]

theorem rcode_bits (w : UInt16) : (w &&& RCODE_MASK).toUInt8 = UInt8.ofNat (w.toNat % 16) := by
  apply UInt8.toNat_inj.mp
  simp only [RCODE_MASK, UInt16.toNat_toUInt8, UInt16.toNat_and, UInt8.toNat_ofNat']
  rw [show UInt16.toNat 15 = 2 ^ 4 - 1 from rfl, Nat.and_two_pow_sub_one_eq_mod]

theorem exact_header : Exact Header.from_wire HeaderAt := by
  unfold Header.from_wire
  refine (exact_u16.bind fun a => exact_u16.bind fun w => exact_u16.bind fun b => exact_u16.bind fun c => exact_u16.bind fun d => exact_u16.bind fun e =>
    Exact.pure (⟨a, w &&& HEADERFLAG_MASK, Opcode.new ((w &&& OPCODE_MASK) >>> OPCODE_SHIFT).toUInt8, Rcode.new (w &&& RCODE_MASK).toUInt8, b, c, d, e⟩ : Header)).congr ?_
  rintro ⟨a, f, o, r, b, c, d, g⟩ msg p e hp
  constructor
  · rintro ⟨a', q1, h1, w, q2, h2, b', q3, h3, c', q4, h4, d', q5, h5, g', q6, h6, h7, rfl⟩
    simp only [Header.mk.injEq] at h7
    obtain ⟨rfl, rfl, rfl, rfl, rfl, rfl, rfl, rfl⟩ := h7
    refine ⟨w, ?_, by rw [opcode_bits], by rw [rcode_bits], rfl⟩
    exact OctetsAt.append.mpr ⟨q5, OctetsAt.append.mpr ⟨q4, OctetsAt.append.mpr ⟨q3, OctetsAt.append.mpr ⟨q2, OctetsAt.append.mpr ⟨q1, h1, h2⟩, h3⟩, h4⟩, h5⟩, h6⟩
  · rintro ⟨w, h, h1, h2, h3⟩
    simp only at h h1 h2 h3
    obtain ⟨q5, h, k6⟩ := OctetsAt.append.mp h
    obtain ⟨q4, h, k5⟩ := OctetsAt.append.mp h
    obtain ⟨q3, h, k4⟩ := OctetsAt.append.mp h
    obtain ⟨q2, h, k3⟩ := OctetsAt.append.mp h
    obtain ⟨q1, k1, k2⟩ := OctetsAt.append.mp h
    refine ⟨a, q1, k1, w, q2, k2, b, q3, k3, c, q4, k4, d, q5, k5, g, e, k6, ?_, rfl⟩
    rw [opcode_bits, rcode_bits, ← h1, ← h2]
    simp only [h3]; rfl

theorem exact_record : Exact RRset.from_wire RecordAt := by
  unfold RRset.from_wire
  refine (exact_name.bind fun n => exact_rrtype.bind fun t => exact_rrclass.bind fun c => exact_u32.bind fun ttl => exact_u16.bind fun len =>
    Exact.ite (c := len = 0) (fun _ => Exact.ite (c := t ≠ .OPT) (fun _ => Exact.fail) (fun _ => Exact.pure (⟨n, t, c, ttl, []⟩ : RRset)))
      fun _ => (exact_rdata t len).bind fun rd => Exact.pure (⟨n, t, c, ttl, [rd]⟩ : RRset)).congr ?_
  rintro s msg p e hp
  constructor
  · rintro ⟨n, q1, h1, t, q2, ⟨v, rfl, h2⟩, c, q3, ⟨w, rfl, h3⟩, ttl, q4, h4, len, q5, h5, h6⟩
    have hoct : OctetsAt (be16 v ++ be16 w ++ be32 ttl ++ be16 len) msg q1 q5 :=
      OctetsAt.append.mpr ⟨q4, OctetsAt.append.mpr ⟨q3, OctetsAt.append.mpr ⟨q2, h2, h3⟩, h4⟩, h5⟩
    obtain rfl : q5 = q1 + 10 := hoct.1
    rcases h6 with ⟨rfl, ⟨_, h⟩ | ⟨ho, rfl, rfl⟩⟩ | ⟨h0, rd, q6, ⟨k1, rfl, k2⟩, rfl, rfl⟩
    · exact h.elim
    · exact ⟨q1, v, w, 0, h1, hoct, rfl, rfl, rfl, Or.inl ⟨rfl, Classical.not_not.mp ho, rfl⟩⟩
    · exact ⟨q1, v, w, len, h1, hoct, rfl, rfl, rfl, Or.inr ⟨h0, rd, rfl, k1, k2⟩⟩
  · obtain ⟨n, t, c, ttl, rds⟩ := s
    rintro ⟨q1, v, w, len, h1, h2, h3, h4, rfl, h5⟩
    simp only at h1 h2 h3 h4 h5
    obtain ⟨q4, h2, k5⟩ := OctetsAt.append.mp h2
    obtain ⟨q3, h2, k4⟩ := OctetsAt.append.mp h2
    obtain ⟨q2, k2, k3⟩ := OctetsAt.append.mp h2
    refine ⟨n, q1, h1, t, q2, ⟨v, h3, k2⟩, c, q3, ⟨w, h4, k3⟩, ttl, q4, k4, len, q1 + 10, k5, ?_⟩
    rcases h5 with ⟨rfl, rfl, rfl⟩ | ⟨h0, rd, rfl, g1, g2⟩
    · exact Or.inl ⟨rfl, Or.inr ⟨by simp, rfl, rfl⟩⟩
    · exact Or.inr ⟨h0, rd, q1 + 10 + len.toNat, ⟨g1, rfl, g2⟩, rfl, rfl⟩

theorem exact_records (n : Nat) : Exact (readRRs n) fun recs msg p e => recs.length = n ∧ RecordsAt recs msg p e := by
  induction n with
  | zero =>
    refine (Exact.pure ([] : List RRset)).congr fun recs msg p e _ => ⟨fun ⟨h1, h2⟩ => ?_, fun ⟨h1, h2⟩ => ?_⟩
    · subst h1; exact ⟨rfl, h2⟩
    · obtain rfl := List.length_eq_zero_iff.mp h1
      exact ⟨rfl, h2⟩
  | succ n ih =>
    refine (exact_record.bind fun s => ih.bind fun ss => Exact.pure (s :: ss)).congr fun recs msg p e hp => ⟨?_, ?_⟩
    · rintro ⟨s, q, h1, ss, q2, ⟨rfl, h2⟩, rfl, rfl⟩
      exact ⟨rfl, q, h1, h2⟩
    · rintro ⟨h1, h2⟩
      match recs, h1, h2 with
      | s :: ss, h1, ⟨q, k1, k2⟩ => exact ⟨s, q, k1, ss, e, ⟨by simpa using h1, k2⟩, rfl, rfl⟩

/-! ## sections -/

theorem RecordAt.decoded {s : RRset} {msg : List UInt8} {p e : Nat} (hp : p ≤ msg.length) (h : RecordAt s msg p e) : s.Decoded ∧ s.rdatas.length ≤ 1 := by
  have h1 := exact_record.of hp h
  rcases safe_rrset' ⟨msg, p⟩ hp with ⟨a, e', k1, _, _, _, k2⟩ | ⟨b', k1, _⟩
  · rw [h1] at k1
    simp only [Prod.mk.injEq, Res.ok.injEq, InBuf.mk.injEq] at k1
    obtain ⟨rfl, _, rfl⟩ := k1
    exact k2.2
  · rw [h1] at k1; simp at k1

theorem RecordsAt.decoded {recs : List RRset} {msg : List UInt8} {p e : Nat} (hp : p ≤ msg.length) (h : RecordsAt recs msg p e) :
    ∀ s ∈ recs, s.Decoded ∧ s.rdatas.length ≤ 1 := by
  induction recs generalizing p with
  | nil => simp
  | cons s ss ih =>
    obtain ⟨q, h1, h2⟩ := h
    intro x hx
    rcases List.mem_cons.mp hx with rfl | hx
    · exact h1.decoded hp
    · exact ih (exact_record.inside hp h1).2 h2 x hx

/-- the loop succeeds exactly where the records can be read and OPT is not repeated -/
theorem fromLoop_ok (n : Nat) : ∀ (acc : List RRset) (last prev : RRset) (b b' : InBuf), b.pos ≤ b.data.length → last.name.WF → prev.SameOwner last →
    ((∃ sets, Section.fromLoop n acc last b = (.ok sets, b')) ↔ ∃ recs, readRRs n b = (.ok recs, b') ∧ OptApart (prev :: recs)) := by
  induction n with
  | zero =>
    intro acc last prev b b' hb hl hs
    constructor
    · rintro ⟨sets, h⟩
      have h' : (Res.ok (acc ++ [last]), b) = (Res.ok sets, b') := h
      simp only [Prod.mk.injEq, Res.ok.injEq] at h'
      exact ⟨[], by rw [← h'.2]; rfl, trivial⟩
    · rintro ⟨recs, h, _⟩
      have h' : (Res.ok [], b) = (Res.ok recs, b') := h
      simp only [Prod.mk.injEq, Res.ok.injEq] at h'
      exact ⟨acc ++ [last], by rw [← h'.2]; rfl⟩
  | succ n ih =>
    intro acc last prev b b' hb hl hs
    rw [Section.fromLoop_succ]
    show _ ↔ ∃ recs, (RRset.from_wire >>= fun x => readRRs n >>= fun xs => pure (x :: xs)) b = _ ∧ _
    rcases safe_rrset' b hb with ⟨s, e, e1, e2, e3, e4, e5, e6, e7⟩ | ⟨x, e1, e2⟩
    · rw [St.bind_ok e1, St.bind_ok e1]
      have hrd : (∃ recs, (readRRs n >>= fun xs => pure (s :: xs)) ⟨b.data, e⟩ = (.ok recs, b') ∧ OptApart (prev :: recs)) ↔
          ¬ (s.typ = .OPT ∧ s.SameOwner prev) ∧ ∃ recs, readRRs n ⟨b.data, e⟩ = (.ok recs, b') ∧ OptApart (s :: recs) := by
        constructor
        · rintro ⟨recs, h1, h2⟩
          obtain ⟨xs, b2, k1, k2⟩ := St.bind_ok_inv h1
          have k2' : (Res.ok (s :: xs), b2) = (Res.ok recs, b') := k2
          simp only [Prod.mk.injEq, Res.ok.injEq] at k2'
          obtain ⟨rfl, rfl⟩ := k2'
          exact ⟨h2.1, xs, k1, h2.2⟩
        · rintro ⟨h1, xs, h2, h3⟩
          exact ⟨s :: xs, by rw [St.bind_ok h2]; rfl, h1, h3⟩
      rw [hrd]
      have hprev : s.SameOwner prev ↔ s.SameOwner last :=
        ⟨fun h => sameOwner_trans h hs, fun h => sameOwner_trans h (by rw [sameOwner_comm]; exact hs)⟩
      rw [hprev]
      rcases join_cases (n := n) (acc := acc) (last := last) e6 hl ⟨b.data, e⟩ with ⟨k1, k2, hj⟩ | ⟨hs', ho, rd, l, hr, hj⟩ | ⟨hs', hj⟩
      · rw [hj]
        exact ⟨fun ⟨_, h⟩ => by simp at h, fun ⟨h, _⟩ => absurd ⟨k2, k1⟩ h⟩
      · rw [hj, ih acc { last with rdatas := last.rdatas ++ [rd] } s ⟨b.data, e⟩ b' e3 hl hs']
        exact ⟨fun h => ⟨fun h' => ho h'.1, h⟩, fun h => h.2⟩
      · rw [hj, ih (acc ++ [last]) s s ⟨b.data, e⟩ b' e3 e6.name (by
          obtain ⟨ls, v, hn⟩ := e6.name
          exact ⟨rfl, ls, ls, v, v, hn, hn, rfl⟩)]
        exact ⟨fun h => ⟨fun h' => hs' h'.2, h⟩, fun h => h.2⟩
    · rw [St.bind_err e1, St.bind_err e1]
      constructor
      · rintro ⟨_, h⟩; simp at h
      · rintro ⟨_, h, _⟩; simp at h

/-! ## the sets are determined by the records -/

theorem merges_key {chunk : List RRset} {set : RRset} (h : Merges chunk set) : ∃ first rest, chunk = first :: rest ∧ (∀ r ∈ rest, r.SameOwner first) ∧
    (∀ t, set.SameOwner t ↔ first.SameOwner t) ∧ (∀ t : RRset, t.SameOwner set ↔ t.SameOwner first) ∧ set = { first with rdatas := chunk.flatMap RRset.rdatas } := by
  obtain ⟨first, rest, rfl, h1, rfl⟩ := h
  exact ⟨first, rest, rfl, h1, fun _ => Iff.rfl, fun _ => Iff.rfl, rfl⟩

theorem run_le {f : RRset} {r1 r2 R1 R2 : List RRset} (h : r1 ++ R1 = r2 ++ R2) (h2 : ∀ r ∈ r2, r.SameOwner f)
    (h1 : ∀ t, R1.head? = some t → ¬ t.SameOwner f) : r2.length ≤ r1.length := by
  rcases List.append_eq_append_iff.mp h with ⟨t, k1, k2⟩ | ⟨t, k1, k2⟩
  · cases t with
    | nil => simp [k1]
    | cons x t =>
      refine absurd (h2 x ?_) (h1 x ?_)
      · rw [k1]; simp
      · rw [k2]; rfl
  · rw [k1]; simp

theorem grouped_unique {c1 c2 : List (List RRset)} {s1 s2 : List RRset} (h : c1.flatten = c2.flatten) (h1 : List.Forall₂ Merges c1 s1)
    (h2 : List.Forall₂ Merges c2 s2) (n1 : NoNeighbours s1) (n2 : NoNeighbours s2) : s1 = s2 := by
  have next : ∀ {c : List RRset} {cs : List (List RRset)} {s : RRset} {ss : List RRset} {first : RRset}, List.Forall₂ Merges cs ss → NoNeighbours (s :: ss) →
      (∀ t, s.SameOwner t ↔ first.SameOwner t) → ∀ t, cs.flatten.head? = some t → ¬ t.SameOwner first := by
    intro c cs s ss first hm hn hk t ht
    cases hm with
    | nil => simp at ht
    | cons hm _ =>
      obtain ⟨f, r, rfl, _, _, k, _⟩ := merges_key hm
      simp only [List.flatten_cons, List.cons_append, List.head?_cons, Option.some.injEq] at ht
      subst ht
      intro hs
      exact hn.1 (by rw [k, hk, sameOwner_comm]; exact hs)
  induction h1 generalizing c2 s2 with
  | nil =>
    cases h2 with
    | nil => rfl
    | cons hm _ =>
      obtain ⟨f, r, rfl, _⟩ := merges_key hm
      simp at h
  | @cons a s as ss hm hms ih =>
    obtain ⟨f, r, rfl, hr, hk, hk', hset⟩ := merges_key hm
    cases h2 with
    | nil => simp at h
    | @cons a2 s' as2 ss' hm2 hms2 =>
      obtain ⟨f2, r2, rfl, hr2, hk2, hk2', hset2⟩ := merges_key hm2
      simp only [List.flatten_cons, List.cons_append, List.cons.injEq] at h
      obtain ⟨rfl, h⟩ := h
      have l1 := run_le h hr2 (next (c := []) hms n1 hk)
      have l2 := run_le h.symm hr (next (c := []) hms2 n2 hk2)
      obtain ⟨rfl, htail⟩ := List.append_inj h (by omega)
      have tl : ∀ {x : RRset} {l : List RRset}, NoNeighbours (x :: l) → NoNeighbours l := by
        intro x l hx
        cases l with
        | nil => trivial
        | cons y l => exact hx.2
      rw [hset, hset2, ih htail hms2 (tl n1) (tl n2)]

theorem Grouped.unique {recs s1 s2 : List RRset} (h1 : Grouped recs s1) (h2 : Grouped recs s2) : s1 = s2 := by
  obtain ⟨⟨c1, a1, b1⟩, n1⟩ := h1
  obtain ⟨⟨c2, a2, b2⟩, n2⟩ := h2
  exact grouped_unique (a1.trans a2.symm) b1 b2 n1 n2

theorem Wire.records_inside {recs : List RRset} {msg : List UInt8} {p e : Nat} (hp : p ≤ msg.length) (h : RecordsAt recs msg p e) : p ≤ e ∧ e ≤ msg.length :=
  (exact_records recs.length).inside hp ⟨rfl, h⟩

/-- when a section is accepted -/
theorem section_ok {n : UInt16} {t : SectionType} {b b' : InBuf} (hb : b.pos ≤ b.data.length) (hn : n ≠ 0) :
    (∃ s, Section.from_wire n t b = (.ok s, b')) ↔ ∃ first rest, readRRs n.toNat b = (.ok (first :: rest), b') ∧
      (first.typ = .OPT → t = .Additional) ∧ OptApart (first :: rest) := by
  have hn1 : n.toNat = (n.toNat - 1) + 1 := by
    have : n.toNat ≠ 0 := fun h => hn (UInt16.toNat_inj.mp (by simpa using h))
    omega
  rw [hn1]
  unfold Section.from_wire
  rw [if_neg hn]
  show _ ↔ ∃ first rest, (RRset.from_wire >>= fun x => readRRs (n.toNat - 1) >>= fun xs => pure (x :: xs)) b = _ ∧ _
  rcases safe_rrset' b hb with ⟨s, e, e1, e2, e3, e4, e5, e6, e7⟩ | ⟨x, e1, e2⟩
  · rw [St.bind_ok e1, St.bind_ok e1]
    have hself : s.SameOwner s := by
      obtain ⟨ls, v, hn⟩ := e6.name
      exact ⟨rfl, ls, ls, v, v, hn, hn, rfl⟩
    have hloop := fromLoop_ok (n.toNat - 1) [] s s ⟨b.data, e⟩ b' e3 e6.name hself
    have hrest : (∃ first rest, (readRRs (n.toNat - 1) >>= fun xs => pure (s :: xs)) ⟨b.data, e⟩ = (.ok (first :: rest), b') ∧
          (first.typ = .OPT → t = .Additional) ∧ OptApart (first :: rest)) ↔
        (s.typ = .OPT → t = .Additional) ∧ ∃ recs, readRRs (n.toNat - 1) ⟨b.data, e⟩ = (.ok recs, b') ∧ OptApart (s :: recs) := by
      constructor
      · rintro ⟨first, rest, h1, h2⟩
        obtain ⟨xs, b2, k1, k2⟩ := St.bind_ok_inv h1
        have k2' : (Res.ok (s :: xs), b2) = (Res.ok (first :: rest), b') := k2
        simp only [Prod.mk.injEq, Res.ok.injEq, List.cons.injEq] at k2'
        obtain ⟨⟨rfl, rfl⟩, rfl⟩ := k2'
        exact ⟨h2.1, xs, k1, h2.2⟩
      · rintro ⟨h1, xs, h2, h3⟩
        exact ⟨s, xs, by rw [St.bind_ok h2]; rfl, h1, h3⟩
    rw [hrest, ← hloop]
    by_cases ho : s.typ = .OPT ∧ t ≠ .Additional
    · rw [if_pos ho]
      refine ⟨fun ⟨_, h⟩ => by simp [St.fail] at h, fun ⟨h, _⟩ => absurd (h ho.1) ho.2⟩
    · rw [if_neg ho]
      constructor
      · rintro ⟨x, h⟩
        obtain ⟨sets, b2, k1, k2⟩ := St.bind_ok_inv h
        have k2' : (Res.ok (some sets), b2) = (Res.ok x, b') := k2
        simp only [Prod.mk.injEq, Res.ok.injEq] at k2'
        exact ⟨fun h => Classical.not_not.mp fun hc => ho ⟨h, hc⟩, sets, k2'.2 ▸ k1⟩
      · rintro ⟨_, sets, h⟩
        exact ⟨some sets, by rw [St.bind_ok h]; rfl⟩
  · rw [St.bind_err e1, St.bind_err e1]
    constructor
    · rintro ⟨_, h⟩; simp at h
    · rintro ⟨_, _, h, _⟩; simp at h

theorem exact_section (n : UInt16) (t : SectionType) : Exact (Section.from_wire n t) (SectionAt t n.toNat) := by
  by_cases hn : n = 0
  · subst hn
    have : Section.from_wire 0 t = pure none := rfl
    rw [this]
    refine (Exact.pure (none : Section)).congr fun s msg p e _ => ⟨fun ⟨h1, h2⟩ => Or.inl ⟨rfl, h1, h2⟩, ?_⟩
    rintro (⟨_, h1, h2⟩ | ⟨first, rest, _, h, _⟩)
    · exact ⟨h1, h2⟩
    · simp at h
  · have hn0 : n.toNat ≠ 0 := fun h => hn (UInt16.toNat_inj.mp (by simpa using h))
    refine ⟨fun {msg p s b'} hp h => ?_, fun {msg p s e} hp h => ?_, fun {msg p s e} hp h => ?_⟩
    · obtain ⟨first, rest, k1, k2, k3⟩ := (section_ok (b := ⟨msg, p⟩) hp hn).mp ⟨s, h⟩
      obtain ⟨recs, sets, rfl, g1, g2, _⟩ := section_grouped (b := ⟨msg, p⟩) hp h hn
      rw [k1] at g1
      simp only [Prod.mk.injEq, Res.ok.injEq, and_true] at g1
      subst g1
      obtain ⟨e, ⟨q1, q2⟩, rfl⟩ := (exact_records n.toNat).to hp k1
      exact ⟨e, Or.inr ⟨first, rest, sets, by simpa using q1.symm, q2, g2, rfl, k2, k3⟩, rfl⟩
    · rcases h with ⟨h, _⟩ | ⟨first, rest, sets, h1, h2, h3, rfl, h4, h5⟩
      · exact absurd h hn0
      · have hr : readRRs n.toNat ⟨msg, p⟩ = (.ok (first :: rest), ⟨msg, e⟩) := (exact_records n.toNat).of hp ⟨by simp [h1], h2⟩
        obtain ⟨s, hs⟩ := (section_ok (b := ⟨msg, p⟩) (t := t) hp hn).mpr ⟨first, rest, hr, h4, h5⟩
        obtain ⟨recs, sets', rfl, g1, g2, _⟩ := section_grouped (b := ⟨msg, p⟩) hp hs hn
        rw [hr] at g1
        simp only [Prod.mk.injEq, Res.ok.injEq, and_true] at g1
        subst g1
        rw [hs, g2.unique h3]
    · rcases h with ⟨h, _⟩ | ⟨first, rest, sets, h1, h2, h3, rfl, h4, h5⟩
      · exact absurd h hn0
      · exact Wire.records_inside hp h2

/-! ## messages -/

theorem header_len {h : Header} {msg : List UInt8} {p e : Nat} (hh : HeaderAt h msg p e) : e = p + 12 := by
  obtain ⟨w, h1, _⟩ := hh
  exact h1.1

theorem exact_read : Exact Response.read fun m msg p e => ∃ p0 p1 p2 p3, HeaderAt m.header msg p p0 ∧ m.header.qd_count = 1 ∧
    QuestionAt m.question msg p0 p1 ∧ SectionAt .Answer m.header.an_count.toNat m.answer msg p1 p2 ∧
    SectionAt .Authority m.header.ns_count.toNat m.authority msg p2 p3 ∧ SectionAt .Additional m.header.ar_count.toNat m.additional msg p3 e := by
  unfold Response.read
  refine (exact_header.bind fun h => Exact.ite (c := h.qd_count ≠ 1) (fun _ => Exact.fail) fun _ => exact_question.bind fun q =>
    (exact_section h.an_count .Answer).bind fun a => (exact_section h.ns_count .Authority).bind fun b =>
      (exact_section h.ar_count .Additional).bind fun c => Exact.pure (⟨h, q, a, b, c⟩ : Response)).congr ?_
  rintro ⟨h, q, a, b, c⟩ msg p e hp
  constructor
  · rintro ⟨h', p0, h0, ⟨_, h⟩ | ⟨h1, q', p1, h2, a', p2, h3, b', p3, h4, c', p4, h5, h6, rfl⟩⟩
    · exact h.elim
    · simp only [Response.mk.injEq] at h6
      obtain ⟨rfl, rfl, rfl, rfl, rfl⟩ := h6
      exact ⟨p0, p1, p2, p3, h0, Classical.not_not.mp h1, h2, h3, h4, h5⟩
  · rintro ⟨p0, p1, p2, p3, h0, h1, h2, h3, h4, h5⟩
    exact ⟨h, p0, h0, Or.inr ⟨Classical.not_not.mpr h1, q, p1, h2, a, p2, h3, b, p3, h4, c, e, h5, rfl, rfl⟩⟩

theorem from_wire_iff (raw : List UInt8) (m : Response) : Response.from_wire raw = .ok m ↔ MessageAt m raw := by
  constructor
  · intro h
    have h' : (Response.read ⟨raw, 0⟩).1 = .ok m := h
    obtain ⟨e, ⟨p0, p1, p2, p3, h0, h1, h2, h3, h4, h5⟩, _⟩ := exact_read.to (msg := raw) (p := 0) (Nat.zero_le _) (Prod.ext h' rfl)
    obtain rfl : p0 = 12 := by have := header_len h0; omega
    exact ⟨p1, p2, p3, e, h0, h1, h2, h3, h4, h5⟩
  · rintro ⟨p1, p2, p3, e, h⟩
    have := exact_read.of (msg := raw) (p := 0) (Nat.zero_le _) ⟨12, p1, p2, p3, h⟩
    show (Response.read ⟨raw, 0⟩).1 = .ok m
    rw [this]

end R53
