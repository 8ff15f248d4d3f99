import Verif.Proofs.Show
import Verif.Proofs.SliceCmp
import Verif.Props.Decode
/-!
# C81: printing messages
-/
namespace R53

/-! ## Printing always succeeds -/

theorem dispByte_ascii (c : UInt8) : ∀ d ∈ LabelSlice.dispByte c, 33 ≤ d ∧ d < 127 := by
  revert c; apply forall_u8'; decide +kernel

theorem dispLoop_total (ls : List Label) (buf : List UInt8) (h : ∀ l ∈ ls, l.length ≤ 63) :
    ∃ t, LabelSlice.dispLoop (wire ls) buf = .ok (buf ++ t) ∧ ∀ c ∈ t, 33 ≤ c ∧ c < 127 := by
  induction ls generalizing buf with
  | nil => exact ⟨[], by rw [wire_nil, LabelSlice.dispLoop]; simp, by simp⟩
  | cons l ls ih =>
    have hl := h l (by simp)
    have hu := u8_len hl
    rw [wire_cons, LabelSlice.dispLoop]
    by_cases h0 : UInt8.ofNat l.length = 0
    · rw [if_pos h0]; exact ⟨[46], rfl, by decide⟩
    · rw [if_neg h0]
      simp only [hu]
      rw [if_neg (by simp), List.take_left, List.drop_left]
      obtain ⟨t, h1, h2⟩ := ih ((if buf = [] then buf else buf ++ [46]) ++ l.flatMap LabelSlice.dispByte) (fun x hx => h x (by simp [hx]))
      rw [h1]
      have hb : ∀ c ∈ l.flatMap LabelSlice.dispByte, 33 ≤ c ∧ c < 127 := by
        intro c hc
        obtain ⟨b, _, hb⟩ := List.mem_flatMap.1 hc
        exact dispByte_ascii b c hb
      split
      · refine ⟨l.flatMap LabelSlice.dispByte ++ t, by simp, ?_⟩
        intro c hc
        rcases List.mem_append.1 hc with hc | hc
        · exact hb c hc
        · exact h2 c hc
      · refine ⟨46 :: (l.flatMap LabelSlice.dispByte ++ t), by simp, ?_⟩
        intro c hc
        rcases List.mem_cons.1 hc with hc | hc
        · subst hc; decide
        · rcases List.mem_append.1 hc with hc | hc
          · exact hb c hc
          · exact h2 c hc

/-- every valid name prints, as visible ASCII without blanks (the unchecked conversion to a string is sound) -/
theorem c05_prints {ls : List Label} (h : ValidName ls) :
    ∃ t, Name.to_string (Name.ofLabels ls) = .ok t ∧ ∀ c ∈ t, 33 ≤ c ∧ c < 127 := by
  have v := LabelSlice.view_of_name h
  have hw : (wire ([] ++ (ls ++ [[]]) ++ [])).length ≤ 255 := by have := h.wire_le; simp; omega
  obtain ⟨-, hb⟩ := v.bytes hw
  obtain ⟨t, h1, h2⟩ := dispLoop_total (ls ++ [[]]) [] (Name.h63root h)
  refine ⟨t, ?_, h2⟩
  unfold Name.to_string LabelSlice.to_string
  rw [LabelSlice.from_name_ofLabels, Res.bind_ok, hb, Res.bind_ok, h1]; rfl

example : ValidName [[0, 200, 46, 92]] ∧ Name.to_string (Name.ofLabels [[0, 200, 46, 92]]) = .ok (ascii "\\000\\200\\.\\\\.") := by decide +kernel

/-- the wire and the display attribute of a field are about the same kind of value -/
def samePair : Codec × Disp → Bool
  | (.name, .name) | (.ipv4, .ipv4) | (.ipv6, .ipv6) | (.u8, .u8) | (.u16, .u16) | (.u32, .u32) | (.u32, .timestamp) | (.rrtype, .rrtype)
  | (.text, .text) | (.byte_binary, .string) | (.byte_binary, .binary) | (.byte_binary, .base64)
  | (.binary, .string) | (.binary, .binary) | (.binary, .base64) => true
  | _ => false

theorem schema_pairs {t : RRType} {cs : List (Codec × Disp)} (h : schema t = some cs) : ∀ p ∈ cs, samePair p = true := by
  cases t <;> simp only [schema] at h <;> first | (cases h; decide) | contradiction

theorem field_total (x : Ext) (p : Codec × Disp) (v : FieldVal) (hp : samePair p = true) (hv : FieldTyped p.1 v) :
    ∃ t, Field.to_str x p.2 v = .ok t := by
  obtain ⟨c, d⟩ := p
  cases c <;> cases d <;> first
    | (simp [samePair] at hp; done)
    | (cases v <;> first
        | (simp [FieldTyped] at hv; done)
        | (obtain ⟨ls, h1, rfl⟩ := hv
           obtain ⟨t, h2, _⟩ := c05_prints h1
           exact ⟨t, h2⟩)
        | (rename_i d
           obtain ⟨t, h2, _⟩ := Hex.c23_to_hex d
           exact ⟨t, h2⟩)
        | exact ⟨_, rfl⟩)

theorem fields_total (x : Ext) : ∀ (cs : List (Codec × Disp)) (vs : List FieldVal), (∀ p ∈ cs, samePair p = true) → FieldsTyped cs vs →
    ∃ t, Field.allToStr x cs vs = .ok t
  | [], _, _, _ => ⟨[], rfl⟩
  | c :: cs, [], _, h => by simp [FieldsTyped] at h
  | c :: cs, v :: vs, hp, h => by
    obtain ⟨t, h1⟩ := field_total x c v (hp c (by simp)) h.1
    obtain ⟨r, h2⟩ := fields_total x cs vs (fun p hq => hp p (by simp [hq])) h.2
    unfold Field.allToStr
    rw [h1, Res.bind_ok]
    split
    · exact ⟨_, rfl⟩
    · rw [h2, Res.bind_ok]; exact ⟨_, rfl⟩

theorem rrset_total (x : Ext) (s : RRset) (h : s.Typed) : ∃ t, s.to_string x = .ok t := by
  obtain ⟨⟨ls, h1, h2⟩, h3⟩ := h
  obtain ⟨nt, h4, _⟩ := c05_prints h1
  rw [← h2] at h4
  have hh := header_eq (r := s) h4
  have key : ∀ rds : List RData, (∀ rd ∈ rds, rd.Typed) → ∃ t, s.linesOf x rds = .ok t := by
    intro rds
    induction rds with
    | nil => intro _; exact ⟨[], rfl⟩
    | cons rd rds ih =>
      intro hr
      obtain ⟨cs, k1, k2⟩ := hr rd (by simp)
      obtain ⟨t, k3⟩ := fields_total x cs rd.fields (schema_pairs k1) k2
      obtain ⟨r, k4⟩ := ih (fun q hq => hr q (by simp [hq]))
      have k5 : rd.to_str x = .ok t := by unfold RData.to_str; rw [k1]; exact k3
      unfold RRset.linesOf RRset.line
      rw [hh, Res.bind_ok, k5, k4]
      exact ⟨_, rfl⟩
  exact key _ h3

theorem section_total (x : Ext) (s : Section) (h : ∀ sets, s = some sets → ∀ r ∈ sets, r.Typed) : ∃ t, s.to_string x = .ok t := by
  have key : ∀ sets : List RRset, (∀ r ∈ sets, r.Typed) → ∃ t, Section.showSets x sets = .ok t := by
    intro sets
    induction sets with
    | nil => intro _; exact ⟨[], rfl⟩
    | cons r sets ih =>
      intro hr
      obtain ⟨t, h1⟩ := rrset_total x r (hr r (by simp))
      obtain ⟨ts, h2⟩ := ih (fun q hq => hr q (by simp [hq]))
      unfold Section.showSets
      rw [h2]
      by_cases ho : r.typ = .OPT
      · rw [if_neg (by simpa using ho)]; exact ⟨_, rfl⟩
      · rw [if_pos (by simpa using ho), h1]; exact ⟨_, rfl⟩
  cases s with
  | none => exact ⟨[], rfl⟩
  | some sets => exact key sets (h sets rfl)

theorem question_total (q : Question) (h : ∃ ls, ValidName ls ∧ q.name = Name.ofLabels ls) : ∃ t, q.to_string = .ok t := by
  obtain ⟨ls, h1, h2⟩ := h
  obtain ⟨nt, h4, _⟩ := c05_prints h1
  unfold Question.to_string
  rw [h2, h4]; exact ⟨_, rfl⟩

theorem edns_total (m : Response) : ∃ e, m.get_edns = .ok e := by
  unfold Response.get_edns
  split
  · exact ⟨_, rfl⟩
  · split
    · exact ⟨_, rfl⟩
    · split
      · rename_i h
        unfold Edns.from_rrset
        rw [assertR_bind_ok h]; exact ⟨_, rfl⟩
      · exact ⟨_, rfl⟩

/-- every message of valid names and data of the right fields prints -/
theorem c81_prints (x : Ext) (m : Response) (h : m.Typed) : ∃ t, m.to_string x = .ok t := by
  obtain ⟨e, h0⟩ := edns_total m
  obtain ⟨q, h1⟩ := question_total m.question h.question
  have sec : ∀ (t : SectionType) (c : UInt16) (ti ta : List UInt8), ∃ y, Response.showSection x c ti (m.section_ t) ta = .ok y := by
    intro t c ti ta
    obtain ⟨y, hy⟩ := section_total x (m.section_ t) (fun sets hs => h.sections t sets hs)
    unfold Response.showSection
    split
    · rw [hy]; exact ⟨_, rfl⟩
    · exact ⟨_, rfl⟩
  obtain ⟨a, ha⟩ := sec .Answer m.header.an_count (ascii ";; ANSWER SECTION:\n") (ascii "\n")
  obtain ⟨n, hn⟩ := sec .Authority m.header.ns_count (ascii ";; AUTHORITY SECTION:\n") (ascii "\n")
  obtain ⟨d, hd⟩ := sec .Additional m.header.ar_count (ascii ";; ADDITIONAL SECTION:\n") []
  unfold Response.to_string
  simp only [Response.section_] at ha hn hd
  rw [h0, h1, ha, hn, hd]
  exact ⟨_, rfl⟩

/-- every received message and request prints -/
theorem c81_received (x : Ext) (raw : List UInt8) :
    (∀ m, Response.from_wire raw = .ok m → ∃ t, m.to_string x = .ok t) ∧
    (∀ r, Request.from_wire raw = .ok r → ∃ t, r.to_string = .ok t) := by
  constructor
  · intro m h
    rcases c43_response_total raw with h' | ⟨m', h', -, -, h3, -⟩
    · rw [h] at h'; simp at h'
    · rw [h] at h'; cases h'
      exact c81_prints x m h3
  · intro r h
    rcases c43_request_total raw with h' | ⟨r', h', h2, -⟩
    · rw [h] at h'; simp at h'
    · rw [h] at h'; cases h'
      obtain ⟨t, ht⟩ := question_total r.question h2.1
      unfold Request.to_string
      rw [ht]; exact ⟨_, rfl⟩

/-- a notify request for a valid zone with or without a SOA record prints -/
theorem c81_notify (x : Ext) (r : NotifyRequest) (hq : ∃ ls, ValidName ls ∧ r.question.name = Name.ofLabels ls)
    (hs : ∀ s, r.soa = some s → s.Typed) : ∃ nt, r.question.name.to_string = .ok nt ∧
    (r.soa = none → r.to_string x = .ok (ascii "notify for zone " ++ nt ++ ascii "\n")) ∧
    ∀ s, r.soa = some s → ∃ t, s.to_string x = .ok t ∧ r.to_string x = .ok (ascii "notify for zone " ++ nt ++ ascii "\nsoa " ++ t ++ ascii "\n") := by
  obtain ⟨ls, h1, h2⟩ := hq
  obtain ⟨nt, h4, _⟩ := c05_prints h1
  rw [← h2] at h4
  refine ⟨nt, h4, fun h => ?_, fun s h => ?_⟩
  · unfold NotifyRequest.to_string
    rw [h4, h]; simp [Res.bind_ok]
  · obtain ⟨t, ht⟩ := rrset_total x s (hs s h)
    refine ⟨t, ht, ?_⟩
    unfold NotifyRequest.to_string
    rw [h4, h]
    simp only [Res.bind_ok, ht, Res.pure_eq]
    have : ascii "\nsoa " = ascii "\n" ++ ascii "soa " := by decide +kernel
    rw [this]; simp

/-! ## What the text shows -/

/-- a section with its title, when the header counts records in it -/
def titled (count : UInt16) (title : String) (lines : List (List UInt8)) (tail : List UInt8) : List UInt8 :=
  if count > 0 then ascii title ++ lines.flatMap (· ++ [10]) ++ tail else []

theorem showSection_lines {x : Ext} (hx : x.Laws) (c : UInt16) (title : String) (s : Section) (tail : List UInt8)
    (h : ∀ r ∈ Section.visible s, r.Printable) : ∃ L : List (List UInt8),
      Response.showSection x c (ascii title) s tail = .ok (titled c title L tail) ∧ (∀ l ∈ L, l ≠ [] ∧ 10 ∉ l) ∧
      ∀ b, L.map (RRset.from_str x b) = (Section.visibleRecords s).map Res.ok := by
  obtain ⟨L, h1, h2, h3⟩ := section_lines hx s h
  refine ⟨L, ?_, h2, h3⟩
  unfold Response.showSection titled
  split
  · rw [h1]; rfl
  · rfl

/-- the text of a message: the header, a line on EDNS if the last additional record is OPT, the question, and for every section with
records its title and one line for each record but OPT, in order; each of these lines reads back as its record. Missing: messages with
names, codes or data that have no text of their own (C70). -/
theorem c81_layout_partial (x : Ext) (hx : x.Laws) (m : Response) (h : m.Printable) :
    ∃ (e : Option Edns) (nt : List UInt8) (A N D : List (List UInt8)), m.get_edns = .ok e ∧ m.question.name.to_string = .ok nt ∧
      Name.new nt = .ok m.question.name ∧
      m.to_string x = .ok (m.header.to_string ++ ascii "\n" ++ Response.showEdns e ++ ascii ";; QUESTION SECTION:\n" ++
        (nt ++ ascii " " ++ m.question.class_.to_str ++ ascii " " ++ m.question.typ.to_str) ++ ascii "\n\n" ++
        titled m.header.an_count ";; ANSWER SECTION:\n" A (ascii "\n") ++
        titled m.header.ns_count ";; AUTHORITY SECTION:\n" N (ascii "\n") ++
        titled m.header.ar_count ";; ADDITIONAL SECTION:\n" D []) ∧
      (∀ l ∈ A ++ N ++ D, l ≠ [] ∧ 10 ∉ l) ∧
      ∀ b, A.map (RRset.from_str x b) = (Section.visibleRecords m.answer).map Res.ok ∧
        N.map (RRset.from_str x b) = (Section.visibleRecords m.authority).map Res.ok ∧
        D.map (RRset.from_str x b) = (Section.visibleRecords m.additional).map Res.ok := by
  obtain ⟨e, h0⟩ := edns_total m
  obtain ⟨nt, q1, q2, q3, q4⟩ := question_text h.question
  obtain ⟨A, a1, a2, a3⟩ := showSection_lines hx m.header.an_count ";; ANSWER SECTION:\n" m.answer (ascii "\n") (h.sections .Answer)
  obtain ⟨N, n1, n2, n3⟩ := showSection_lines hx m.header.ns_count ";; AUTHORITY SECTION:\n" m.authority (ascii "\n") (h.sections .Authority)
  obtain ⟨D, d1, d2, d3⟩ := showSection_lines hx m.header.ar_count ";; ADDITIONAL SECTION:\n" m.additional [] (h.sections .Additional)
  refine ⟨e, nt, A, N, D, h0, q1, q3, ?_, ?_, fun b => ⟨a3 b, n3 b, d3 b⟩⟩
  · unfold Response.to_string
    rw [h0, q4, a1, n1, d1]; rfl
  · intro l hl
    rcases List.mem_append.1 hl with hl | hl
    · rcases List.mem_append.1 hl with hl | hl
      · exact a2 l hl
      · exact n2 l hl
    · exact d2 l hl

/-- the part of EDNS that is printed -/
def ednsShown (e : Option Edns) : Option (UInt8 × Bool × UInt16) := e.map fun e => (e.version, e.dnssec_aware, e.udp_size)

theorem showEdns_cut {e f : Option Edns} {r s : List UInt8}
    (h : Response.showEdns e ++ (ascii ";; QUESTION SECTION:\n" ++ r) = Response.showEdns f ++ (ascii ";; QUESTION SECTION:\n" ++ s)) :
    ednsShown e = ednsShown f ∧ r = s := by
  have l1 : ascii ";; OPT PSEUDOSECTION:\n" = 59 :: 59 :: 32 :: 79 :: (ascii ";; OPT PSEUDOSECTION:\n").drop 4 := by decide +kernel
  have l2 : ascii ";; QUESTION SECTION:\n" = 59 :: 59 :: 32 :: 81 :: (ascii ";; QUESTION SECTION:\n").drop 4 := by decide +kernel
  cases e with
  | none =>
    cases f with
    | none => exact ⟨rfl, List.append_cancel_left (List.append_cancel_left h)⟩
    | some f => simp only [Response.showEdns, List.nil_append, List.append_assoc] at h; rw [l1, l2] at h; simp at h
  | some e =>
    cases f with
    | none => simp only [Response.showEdns, List.nil_append, List.append_assoc] at h; rw [l1, l2] at h; simp at h
    | some f =>
      simp only [Response.showEdns, List.append_assoc] at h
      obtain ⟨h1, h2, h3, h4⟩ := edns_cut (List.append_cancel_left h)
      exact ⟨by simp [ednsShown, h1, h2, h3], h4⟩

theorem titled_cut {c : UInt16} {title : String} {L M : List (List UInt8)} {r s : List UInt8} (hL : ∀ l ∈ L, l ≠ [] ∧ 10 ∉ l)
    (hM : ∀ l ∈ M, l ≠ [] ∧ 10 ∉ l) (h : titled c title L (ascii "\n") ++ r = titled c title M (ascii "\n") ++ s) :
    (c > 0 → L = M) ∧ r = s := by
  unfold titled at h
  by_cases hc : c > 0
  · rw [if_pos hc, if_pos hc] at h
    simp only [List.append_assoc] at h
    have h := List.append_cancel_left h
    rw [show ascii "\n" = [10] by decide +kernel] at h
    obtain ⟨h1, h2⟩ := lines_cut hL hM h
    exact ⟨fun _ => h1, h2⟩
  · rw [if_neg hc, if_neg hc] at h
    exact ⟨fun h' => absurd h' hc, by simpa using h⟩

theorem titled_inj {c : UInt16} {title : String} {L M : List (List UInt8)} (hL : ∀ l ∈ L, l ≠ [] ∧ 10 ∉ l)
    (hM : ∀ l ∈ M, l ≠ [] ∧ 10 ∉ l) (h : titled c title L [] = titled c title M []) (hc : c > 0) : L = M := by
  unfold titled at h
  rw [if_pos hc, if_pos hc, List.append_nil, List.append_nil] at h
  exact lines_inj hL hM (List.append_cancel_left h)

/-- two messages with the same text have the same header, question, records other than OPT in every section, and the same version, DO
flag and UDP size in the EDNS record. Missing: as in `c81_layout_partial`; the extended rcode of EDNS and other OPT records are not printed
(`c81_rcode_violated`). -/
theorem c81_faithful_partial (x : Ext) (hx : x.Laws) (m k : Response) (hm : m.Printable) (hk : k.Printable) (t : List UInt8)
    (h1 : m.to_string x = .ok t) (h2 : k.to_string x = .ok t) :
    m.header = k.header ∧ m.question = k.question ∧ (∀ s, Section.visibleRecords (m.section_ s) = Section.visibleRecords (k.section_ s)) ∧
    ∃ e f, m.get_edns = .ok e ∧ k.get_edns = .ok f ∧ ednsShown e = ednsShown f := by
  obtain ⟨e, nt, A, N, D, a1, a2, a3, a4, a5, a6⟩ := c81_layout_partial x hx m hm
  obtain ⟨f, kt, B, O, E, b1, b2, b3, b4, b5, b6⟩ := c81_layout_partial x hx k hk
  rw [h1] at a4
  rw [h2] at b4
  have heq := (Res.ok.inj a4).symm.trans (Res.ok.inj b4)
  clear a4 b4
  have text : ∀ (q : Question) (n : List UInt8), q.name.to_string = .ok n →
      q.to_string = .ok (n ++ ascii " " ++ q.class_.to_str ++ ascii " " ++ q.typ.to_str) := by
    intro q n h
    unfold Question.to_string
    rw [h, Res.bind_ok]; rfl
  have tm := text m.question nt a2
  have tk := text k.question kt b2
  generalize nt ++ ascii " " ++ m.question.class_.to_str ++ ascii " " ++ m.question.typ.to_str = qm at *
  generalize kt ++ ascii " " ++ k.question.class_.to_str ++ ascii " " ++ k.question.typ.to_str = qk at *
  simp only [List.append_assoc (m.header.to_string), List.append_assoc (k.header.to_string)] at heq
  simp only [List.append_assoc] at heq
  obtain ⟨i1, i2, i3, i4, i5, i6, i7, i8, heq⟩ := header_cut heq
  replace heq := List.append_cancel_left heq
  obtain ⟨he, heq⟩ := showEdns_cut heq
  obtain ⟨hq, heq⟩ := question_cut hm.question hk.question tm tk heq
  rw [← i6, ← i7, ← i8] at heq
  have mA : ∀ l ∈ A, l ≠ [] ∧ 10 ∉ l := fun l hl => a5 l (by simp [hl])
  have mN : ∀ l ∈ N, l ≠ [] ∧ 10 ∉ l := fun l hl => a5 l (by simp [hl])
  have mD : ∀ l ∈ D, l ≠ [] ∧ 10 ∉ l := fun l hl => a5 l (by simp [hl])
  have mB : ∀ l ∈ B, l ≠ [] ∧ 10 ∉ l := fun l hl => b5 l (by simp [hl])
  have mO : ∀ l ∈ O, l ≠ [] ∧ 10 ∉ l := fun l hl => b5 l (by simp [hl])
  have mE : ∀ l ∈ E, l ≠ [] ∧ 10 ∉ l := fun l hl => b5 l (by simp [hl])
  obtain ⟨c1, heq⟩ := titled_cut mA mB heq
  obtain ⟨c2, heq⟩ := titled_cut mN mO heq
  have c3 := titled_inj mD mE heq
  obtain ⟨a6, a7, a8⟩ := a6 .release
  obtain ⟨b6, b7, b8⟩ := b6 .release
  have okinj : ∀ {u v : List RRset}, u.map Res.ok = v.map Res.ok → u = v := fun {u v} h =>
    (List.map_inj_right (fun _ _ h => Res.ok.inj h)).1 h
  have zero : ∀ {c : UInt16}, ¬ c > 0 → c = 0 := by
    intro c h
    apply UInt16.toNat_inj.1
    have : ¬ (0 : UInt16).toNat < c.toNat := fun h' => h (UInt16.lt_iff_toNat_lt.2 h')
    simp at this ⊢; omega
  have secs : ∀ {c : UInt16} {L M : List (List UInt8)} {u v : Section}, (c > 0 → L = M) →
      L.map (RRset.from_str x .release) = (Section.visibleRecords u).map Res.ok →
      M.map (RRset.from_str x .release) = (Section.visibleRecords v).map Res.ok →
      (c = 0 → Section.visible u = []) → (c = 0 → Section.visible v = []) → Section.visibleRecords u = Section.visibleRecords v := by
    intro c L M u v g1 g2 g3 g4 g5
    by_cases hc : c > 0
    · rw [g1 hc, g3] at g2; exact (okinj g2).symm
    · unfold Section.visibleRecords
      rw [g4 (zero hc), g5 (zero hc)]
  have hf : m.header.flag = k.header.flag := flag_eq hm.flag hk.flag i4
  refine ⟨?_, hq, ?_, e, f, a1, b1, he⟩
  · cases hh : m.header; cases hh' : k.header; rw [hh, hh'] at i1 i2 i3 i5 i6 i7 i8 hf; simp_all
  · intro s
    cases s
    · exact secs c1 a6 b6 hm.an (by rw [i6]; exact hk.an)
    · exact secs c2 a7 b7 hm.ns (by rw [i7]; exact hk.ns)
    · exact secs c3 a8 b8 hm.ar (by rw [i8]; exact hk.ar)

/-- the text of a request: the header and the question, and the request can be told from its text. Missing: questions of other classes
and types (C31), names with escapes (C05), and bits of the header word that are neither flag nor opcode nor rcode. -/
theorem c81_request_partial (r : Request) (hr : r.question.Printable) :
    (∃ nt, r.question.name.to_string = .ok nt ∧ Name.new nt = .ok r.question.name ∧
      r.to_string = .ok (r.header.to_string ++ ascii "\n;; QUESTION SECTION:\n" ++ nt ++ ascii " " ++ r.question.class_.to_str ++ ascii " " ++
        r.question.typ.to_str ++ ascii "\n\n")) ∧
    ∀ k : Request, k.question.Printable → r.header.flag &&& 0x87b0 = r.header.flag → k.header.flag &&& 0x87b0 = k.header.flag →
      r.to_string = k.to_string → r = k := by
  have lay : ∀ r : Request, r.question.Printable → ∃ nt, r.question.name.to_string = .ok nt ∧ Name.new nt = .ok r.question.name ∧
      r.question.to_string = .ok (nt ++ ascii " " ++ r.question.class_.to_str ++ ascii " " ++ r.question.typ.to_str) ∧
      r.to_string = .ok (r.header.to_string ++ ascii "\n" ++ ascii ";; QUESTION SECTION:\n" ++
        (nt ++ ascii " " ++ r.question.class_.to_str ++ ascii " " ++ r.question.typ.to_str) ++ ascii "\n\n") := by
    intro r hr
    obtain ⟨nt, q1, q2, q3, q4⟩ := question_text hr
    refine ⟨nt, q1, q3, q4, ?_⟩
    unfold Request.to_string
    rw [q4]; rfl
  constructor
  · obtain ⟨nt, q1, q2, -, q4⟩ := lay r hr
    refine ⟨nt, q1, q2, ?_⟩
    rw [q4, show ascii "\n;; QUESTION SECTION:\n" = ascii "\n" ++ ascii ";; QUESTION SECTION:\n" by decide +kernel]
    simp only [List.append_assoc]
  · intro k hk fr fk h
    obtain ⟨nt, a1, a2, a3, a4⟩ := lay r hr
    obtain ⟨kt, b1, b2, b3, b4⟩ := lay k hk
    rw [a4, b4] at h
    have heq := Res.ok.inj h
    generalize nt ++ ascii " " ++ r.question.class_.to_str ++ ascii " " ++ r.question.typ.to_str = qm at *
    generalize kt ++ ascii " " ++ k.question.class_.to_str ++ ascii " " ++ k.question.typ.to_str = qk at *
    simp only [List.append_assoc (r.header.to_string), List.append_assoc (k.header.to_string)] at heq
    simp only [List.append_assoc] at heq
    obtain ⟨i1, i2, i3, i4, i5, i6, i7, i8, heq⟩ := header_cut heq
    replace heq := List.append_cancel_left (List.append_cancel_left heq)
    have hq : r.question = k.question := (question_cut (r := []) (s := []) hr hk a3 b3 (by simpa using heq)).1
    have hf : r.header.flag = k.header.flag := flag_eq fr fk i4
    cases r; cases k
    rename_i h1 _ h2 _
    cases h1; cases h2
    simp_all

/-- messages as the decoder makes them, without OPT records, are equal if their texts are -/
theorem c81_distinct_partial (x : Ext) (hx : x.Laws) (m k : Response) (hm : m.Printable) (hk : k.Printable) (fm : m.Fits) (fk : k.Fits)
    (om : ∀ t, ∀ s ∈ (m.section_ t).getD [], s.typ ≠ .OPT) (ok : ∀ t, ∀ s ∈ (k.section_ t).getD [], s.typ ≠ .OPT) (t : List UInt8)
    (h1 : m.to_string x = .ok t) (h2 : k.to_string x = .ok t) : m = k := by
  obtain ⟨e1, e2, e3, -⟩ := c81_faithful_partial x hx m k hm hk t h1 h2
  have sec : ∀ (ty : SectionType) (u v : Section) (c : UInt16), SectionFits ty u → SectionFits ty v → (∀ s ∈ u.getD [], s.typ ≠ .OPT) → (∀ s ∈ v.getD [], s.typ ≠ .OPT) →
      Section.visibleRecords u = Section.visibleRecords v → c.toNat = (Section.records u).length → c.toNat = (Section.records v).length → u = v := by
    intro ty u v c f1 f2 o1 o2 e n1 n2
    have vis : ∀ w : Section, (∀ s ∈ w.getD [], s.typ ≠ .OPT) → Section.visible w = w.getD [] := by
      intro w h
      unfold Section.visible
      exact List.filter_eq_self.2 (fun s hs => decide_eq_true (h s hs))
    unfold Section.visibleRecords at e
    rw [vis u o1, vis v o2] at e
    have ne : ∀ (s : RRset) (l : List RRset), (s :: l).flatMap RRset.records ≠ [] := by
      intro s l h
      rw [List.flatMap_cons, List.append_eq_nil_iff] at h
      have := h.1
      unfold RRset.records at this
      split at this
      · simp at this
      · rename_i hr; simp at this; exact hr this
    cases u with
    | none =>
      cases v with
      | none => rfl
      | some v =>
        cases v with
        | nil => exact absurd rfl f2.1
        | cons s v => exact absurd e.symm (ne s v)
    | some u =>
      cases v with
      | none =>
        cases u with
        | nil => exact absurd rfl f1.1
        | cons s u => exact absurd e (ne s u)
      | some v =>
        obtain ⟨⟨c1, g1, g2⟩, g3⟩ := records_grouped f1.2.1 f1.2.2.1
        obtain ⟨⟨c2, g4, g5⟩, g6⟩ := records_grouped f2.2.1 f2.2.2.1
        simp only [Option.getD_some] at e
        rw [grouped_unique (g1.trans (e.trans g4.symm)) g2 g5 g3 g6]
  have s1 := sec .Answer m.answer k.answer m.header.an_count fm.answer fk.answer (om .Answer) (ok .Answer) (e3 .Answer) fm.an (by rw [e1]; exact fk.an)
  have s2 := sec .Authority m.authority k.authority m.header.ns_count fm.authority fk.authority (om .Authority) (ok .Authority) (e3 .Authority) fm.ns (by rw [e1]; exact fk.ns)
  have s3 := sec .Additional m.additional k.additional m.header.ar_count fm.additional fk.additional (om .Additional) (ok .Additional) (e3 .Additional) fm.ar (by rw [e1]; exact fk.ar)
  cases m; cases k; simp_all

namespace ShowSample
/-- a response with two RRSIG records, a UDP size and the extended rcode `ext` -/
def msg (ext : UInt8) : Response :=
  ⟨⟨7, 0x8180, .Query, .NoError, 1, 2, 0, 1⟩, ⟨TextSample.www, .RRSIG, .IN⟩, some [TextSample.set], none,
    some [(Edns.mk 0 ext 4096 true none).to_rrset]⟩
theorem msg_printable (ext : UInt8) : (msg ext).Printable := by
  refine ⟨⟨TextSample.www_plain, (by intro v h; cases h), (by intro v h; cases h), by simp [msg]⟩, ?_, (show (0x8180 : UInt16) &&& 0x87b0 = 0x8180 by decide), (by intro h; cases h), fun _ => rfl, by intro h; cases h⟩
  intro t s hs
  cases t
  · have : s = TextSample.set := by simpa [Section.visible, Response.section_, msg, TextSample.set] using hs
    subst this; exact TextSample.set_printable
  · simp [Section.visible, Response.section_, msg] at hs
  · simp [Section.visible, Response.section_, msg, Edns.to_rrset] at hs
end ShowSample

/-- two requests that meet the premises of `c81_request_partial` and print differently -/
theorem c81_request_example : ∃ r k : Request, r.question.Printable ∧ k.question.Printable ∧ r.header.flag &&& 0x87b0 = r.header.flag ∧
    k.header.flag &&& 0x87b0 = k.header.flag ∧
    r.to_string = .ok (ascii ";; ->>HEADER<<- opcode: QUERY, status: NOERROR, id: 7\n;; flags:  rd; QUERY: 1, ANSWER: 0, AUTHORITY: 0, ADDITIONAL: 0, \n;; QUESTION SECTION:\nwww.a. IN A\n\n") ∧
    r.to_string ≠ k.to_string := by
  have p : ∀ i, (Request.new i TextSample.www .A).question.Printable := fun i =>
    ⟨TextSample.www_plain, (by intro v h; cases h), (by intro v h; cases h), by simp [Request.new]⟩
  exact ⟨Request.new 7 TextSample.www .A, Request.new 8 TextSample.www .A, p 7, p 8, by decide +kernel, by decide +kernel, by decide +kernel, by decide +kernel⟩

/-- the sample prints; VIOLATION: the title of the question section does not start a line when there is EDNS -/
theorem c81_title_violated : (ShowSample.msg 0).Printable ∧ (ShowSample.msg 0).to_string hexExt =
    .ok (ascii (";; ->>HEADER<<- opcode: QUERY, status: NOERROR, id: 7\n;; flags:  qr rd ra; QUERY: 1, ANSWER: 2, AUTHORITY: 0, ADDITIONAL: 1, \n" ++
      ";; OPT PSEUDOSECTION:\n; EDNS: version: 0, flags: do; udp: 4096;; QUESTION SECTION:\nwww.a. IN RRSIG\n\n;; ANSWER SECTION:\n" ++
      "www.a.\t300\tIN\tRRSIG\tA 8 2 300 20200913122640 21060207062815 7 www.a. 010203\n" ++
      "www.a.\t300\tIN\tRRSIG\tAAAA 8 2 300 20200913122640 21060207062815 7 www.a. 010203\n\n;; ADDITIONAL SECTION:\n")) :=
  ⟨ShowSample.msg_printable 0, by decide +kernel⟩

/-- VIOLATION: the extended rcode is not shown (BADVERS prints as NOERROR), types without a name all print as the same word, and CERT as URI -/
theorem c81_rcode_violated :
    ((ShowSample.msg 0).to_string hexExt = (ShowSample.msg 1).to_string hexExt ∧ ShowSample.msg 0 ≠ ShowSample.msg 1) ∧
    Question.to_string ⟨TextSample.www, .Unknown 1000, .IN⟩ = Question.to_string ⟨TextSample.www, .Unknown 1001, .IN⟩ ∧
    Question.to_string ⟨TextSample.www, .CERT, .IN⟩ = Question.to_string ⟨TextSample.www, .URI, .IN⟩ := by
  decide +kernel

end R53
