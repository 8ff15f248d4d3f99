import Verif.Proofs.Tell2
import Verif.Proofs.Std2
/-!
# C91: texts tell record sets, requests and messages apart
-/
namespace R53

/-! ## exactly what is shown -/

/-- two record sets have the same text exactly when they have the same owner, type (CERT included), TTL and data in order, whatever
octets names and data have, empty strings included, and the same class, where all classes without a name count as one, and so do types without
a name, and CERT and URI, as the type an RRSIG covers -/
theorem c91_set_exact (x : Ext) (hx : x.Laws) (h0 : x.encode64 [] = []) (r s : RRset) (hr : r.Solid) (hs : s.Solid) :
    r.to_string x = s.to_string x ↔ r.blur = s.blur := by
  refine ⟨fun h => ?_, fun h => by rw [← set_blur_shown, h, set_blur_shown]⟩
  obtain ⟨a1, a2⟩ := set_shown hx h0 hr
  obtain ⟨b1, b2⟩ := set_shown hx h0 hs
  rw [a1, b1] at h
  have e := lines_inj a2 b2 (Res.ok.inj h)
  have e := records_inj_on hx h0 (u := [r]) (v := [s]) (by simpa using hr) (by simpa using hs) (by simpa using e)
  simp only [List.flatMap_cons, List.flatMap_nil, List.append_nil] at e
  unfold RRset.records at e
  rw [if_neg hr.some_, if_neg hs.some_, List.map_map, List.map_map] at e
  obtain ⟨n, ty, c, tt, rds⟩ := r
  obtain ⟨n', ty', c', tt', rds'⟩ := s
  have hne := hr.some_
  simp only at e hne
  cases rds with
  | nil => exact absurd rfl hne
  | cons rd rds =>
    cases rds' with
    | nil => simp at e
    | cons rd' rds' =>
      simp only [List.map_cons, List.cons.injEq, Function.comp, RRset.blur, RRset.mk.injEq, List.map_nil] at e ⊢
      obtain ⟨⟨e1, e2, e3, e4, e5, -⟩, e6⟩ := e
      refine ⟨e1, e2, e3, e4, e5, ?_⟩
      replace e6 : rds.map (fun rd => (⟨n, ty, c.blur, tt, [rd.blur]⟩ : RRset)) = rds'.map (fun rd => (⟨n', ty', c'.blur, tt', [rd.blur]⟩ : RRset)) := e6
      rw [← e1, ← e2, ← e3, ← e4] at e6
      have : ∀ l l' : List RData, l.map (fun rd => (⟨n, ty, c.blur, tt, [rd.blur]⟩ : RRset)) = l'.map (fun rd => (⟨n, ty, c.blur, tt, [rd.blur]⟩ : RRset)) →
          l.map RData.blur = l'.map RData.blur := by
        intro l l' h
        exact map_inj_on (fun a _ b _ h => by simpa using h) h
      exact this _ _ e6

/-- the data of two records of one type have the same text exactly when they are the same up to such types inside the data -/
theorem c91_data_exact (x : Ext) (hx : x.Laws) (h0 : x.encode64 [] = []) (a b : RData) (ha : a.Typed) (hb : b.Typed) (hk : a.kind = b.kind) :
    a.to_str x = b.to_str x ↔ a.blur = b.blur := by
  refine ⟨fun h => ?_, fun h => by rw [← data_shown, h, data_shown]⟩
  obtain ⟨cs, a1, a2⟩ := ha
  obtain ⟨ds, b1, b2⟩ := hb
  rw [hk, b1] at a1
  cases a1
  obtain ⟨t, t1⟩ := fields_total x cs a.fields (schema_pairs b1) a2
  have ea : a.to_str x = .ok t := by unfold RData.to_str; rw [hk, b1]; exact t1
  have eb : Field.allToStr x cs b.fields = .ok t := by
    rw [ea] at h; unfold RData.to_str at h; rw [b1] at h; exact h.symm
  obtain ⟨e, -⟩ := fields_tell hx h0 (schema_pairs b1) a2 b2 t1 eb (.inl rfl) (.inl rfl) rfl
  unfold RData.blur
  rw [e, hk]

theorem showEdns_shown {e f : Option Edns} (h : ednsShown e = ednsShown f) : Response.showEdns e = Response.showEdns f := by
  cases e <;> cases f <;> simp [ednsShown] at h
  · rfl
  · obtain ⟨h1, h2, h3⟩ := h
    simp only [Response.showEdns, Edns.to_string, h1, h2, h3]

theorem records_blur_shown {x : Ext} {u v : List RRset} (h : u.map RRset.blur = v.map RRset.blur) : u.map (RRset.shown x) = v.map (RRset.shown x) := by
  have one : ∀ r : RRset, r.shown x = r.blur.shown x := by intro r; unfold RRset.shown; rw [set_blur_shown]
  exact map_inj_on (fun a _ b _ h => by rw [one a, one b, h]) h

theorem solid_layout {x : Ext} (hx : x.Laws) (h0 : x.encode64 [] = []) (m : Response) (hm : m.Solid) : ∃ e q, m.get_edns = .ok e ∧ m.question.to_string = .ok q ∧
    m.to_string x = .ok (m.header.to_string ++ ascii "\n" ++ Response.showEdns e ++ ascii ";; QUESTION SECTION:\n" ++ q ++ ascii "\n\n" ++
      titled m.header.an_count ";; ANSWER SECTION:\n" ((Section.visibleRecords m.answer).map (RRset.shown x)) (ascii "\n") ++
      titled m.header.ns_count ";; AUTHORITY SECTION:\n" ((Section.visibleRecords m.authority).map (RRset.shown x)) (ascii "\n") ++
      titled m.header.ar_count ";; ADDITIONAL SECTION:\n" ((Section.visibleRecords m.additional).map (RRset.shown x)) []) := by
  obtain ⟨e, h0'⟩ := edns_total m
  obtain ⟨q, h1⟩ := question_total m.question hm.question
  have sec : ∀ (t : SectionType) (c : UInt16) (ti : String) (ta : List UInt8), Response.showSection x c (ascii ti) (m.section_ t) ta =
      .ok (titled c ti ((Section.visibleRecords (m.section_ t)).map (RRset.shown x)) ta) := by
    intro t c ti ta
    unfold Response.showSection titled
    split
    · rw [(section_shown hx h0 _ (hm.sections t)).1]; rfl
    · rfl
  have ha := sec .Answer m.header.an_count ";; ANSWER SECTION:\n" (ascii "\n")
  have hn := sec .Authority m.header.ns_count ";; AUTHORITY SECTION:\n" (ascii "\n")
  have hd := sec .Additional m.header.ar_count ";; ADDITIONAL SECTION:\n" []
  simp only [Response.section_] at ha hn hd
  refine ⟨e, q, h0', h1, ?_⟩
  unfold Response.to_string
  rw [h0', h1, ha, hn, hd]; rfl

/-- two messages have the same text exactly when everything the text shows is the same (`SameShown`), whatever octets names and data have -/
theorem c91_message_exact (x : Ext) (hx : x.Laws) (h0 : x.encode64 [] = []) (m k : Response) (hm : m.Solid) (hk : k.Solid) :
    m.to_string x = k.to_string x ↔ SameShown m k := by
  obtain ⟨e, qm, a1, tm, a4⟩ := solid_layout hx h0 m hm
  obtain ⟨f, qk, b1, tk, b4⟩ := solid_layout hx h0 k hk
  constructor
  · intro h
    rw [a4, b4] at h
    have heq := Res.ok.inj h
    simp only [List.append_assoc (m.header.to_string), List.append_assoc (k.header.to_string)] at heq
    simp only [List.append_assoc] at heq
    obtain ⟨i1, i2, i3, i4, i5, i6, i7, i8, heq⟩ := header_cut heq
    replace heq := List.append_cancel_left heq
    obtain ⟨he, heq⟩ := showEdns_cut heq
    obtain ⟨hq, heq⟩ := coded_question_cut hm.question hk.question tm tk heq
    rw [← i6, ← i7, ← i8] at heq
    have lm := fun t => (section_shown hx h0 _ (hm.sections t)).2
    have lk := fun t => (section_shown hx h0 _ (hk.sections t)).2
    obtain ⟨c1, heq⟩ := titled_cut (lm .Answer) (lk .Answer) heq
    obtain ⟨c2, heq⟩ := titled_cut (lm .Authority) (lk .Authority) heq
    have c3 := titled_inj (lm .Additional) (lk .Additional) heq
    have hf := flag_blur i4
    refine ⟨?_, hq, ?_, e, f, a1, b1, he⟩
    · unfold Header.blur
      rw [hf]
      cases hh : m.header; cases hh' : k.header; rw [hh, hh'] at i1 i2 i3 i5 i6 i7 i8; simp_all
    · intro s
      cases s
      · exact fun hc => records_inj_on hx h0 (hm.sections .Answer) (hk.sections .Answer) (c1 hc)
      · exact fun hc => records_inj_on hx h0 (hm.sections .Authority) (hk.sections .Authority) (c2 hc)
      · exact fun hc => records_inj_on hx h0 (hm.sections .Additional) (hk.sections .Additional) (c3 hc)
  · rintro ⟨h1, h2, h3, e', f', g1, g2, g3⟩
    rw [a1] at g1; cases g1
    rw [b1] at g2; cases g2
    have hh : m.header.to_string = k.header.to_string := by rw [← header_blur_shown, h1, header_blur_shown]
    have hq : qm = qk := by
      have : m.question.to_string = k.question.to_string := by rw [← question_blur_shown, h2, question_blur_shown]
      rw [tm, tk] at this; exact Res.ok.inj this
    have cn : m.header.an_count = k.header.an_count ∧ m.header.ns_count = k.header.ns_count ∧ m.header.ar_count = k.header.ar_count := by
      simp only [Header.blur, Header.mk.injEq] at h1
      exact ⟨h1.2.2.2.2.2.1, h1.2.2.2.2.2.2.1, h1.2.2.2.2.2.2.2⟩
    have tt : ∀ {c : UInt16} {ti : String} {ta : List UInt8} {u v : Section}, (c > 0 → (Section.visibleRecords u).map RRset.blur = (Section.visibleRecords v).map RRset.blur) →
        titled c ti ((Section.visibleRecords u).map (RRset.shown x)) ta = titled c ti ((Section.visibleRecords v).map (RRset.shown x)) ta := by
      intro c ti ta u v h
      unfold titled
      by_cases hc : c > 0
      · rw [if_pos hc, if_pos hc, records_blur_shown (h hc)]
      · rw [if_neg hc, if_neg hc]
    have s1 : m.header.an_count > 0 → _ := h3 .Answer
    have s2 : m.header.ns_count > 0 → _ := h3 .Authority
    have s3 : m.header.ar_count > 0 → _ := h3 .Additional
    simp only [Response.section_] at s1 s2 s3
    rw [a4, b4, hh, hq, showEdns_shown g3, tt s1, tt s2, tt s3, cn.1, cn.2.1, cn.2.2]

/-- two requests have the same text exactly when their headers are the same but for bits that are no flags, and so are their questions up to
codes that are not shown -/
theorem c91_request_exact (r k : Request) (hr : ∃ ls, ValidName ls ∧ r.question.name = Name.ofLabels ls)
    (hk : ∃ ls, ValidName ls ∧ k.question.name = Name.ofLabels ls) :
    r.to_string = k.to_string ↔ r.header.blur = k.header.blur ∧ r.question.blur = k.question.blur := by
  constructor
  · intro h
    have lay : ∀ r : Request, r.question.name.WF → ∃ q, r.question.to_string = .ok q ∧
        r.to_string = .ok (r.header.to_string ++ ascii "\n" ++ ascii ";; QUESTION SECTION:\n" ++ q ++ ascii "\n\n") := by
      intro r hr
      obtain ⟨q, h1⟩ := question_total r.question hr
      refine ⟨q, h1, ?_⟩
      unfold Request.to_string
      rw [h1]; rfl
    obtain ⟨qm, a3, a4⟩ := lay r hr
    obtain ⟨qk, b3, b4⟩ := lay k hk
    rw [a4, b4] at h
    have heq := Res.ok.inj h
    simp only [List.append_assoc (r.header.to_string), List.append_assoc (k.header.to_string)] at heq
    simp only [List.append_assoc] at heq
    obtain ⟨i1, i2, i3, i4, i5, i6, i7, i8, heq⟩ := header_cut heq
    replace heq := List.append_cancel_left (List.append_cancel_left heq)
    refine ⟨?_, (coded_question_cut (r := []) (s := []) hr hk a3 b3 (by simpa using heq)).1⟩
    have hf := flag_blur i4
    unfold Header.blur
    rw [hf]
    cases hh : r.header; cases hh' : k.header; rw [hh, hh'] at i1 i2 i3 i5 i6 i7 i8; simp_all
  · rintro ⟨h1, h2⟩
    have hh : r.header.to_string = k.header.to_string := by rw [← header_blur_shown, h1, header_blur_shown]
    have hq : r.question.to_string = k.question.to_string := by rw [← question_blur_shown, h2, question_blur_shown]
    unfold Request.to_string
    rw [hh, hq]

/-- two notifies have the same text exactly when they are for the same zone and have, or not, the same SOA set up to codes that are not shown; the
rest (header, class and type of the question) is not printed -/
theorem c91_notify_exact (x : Ext) (hx : x.Laws) (h0 : x.encode64 [] = []) (r k : NotifyRequest)
    (hr : ∃ ls, ValidName ls ∧ r.question.name = Name.ofLabels ls) (hk : ∃ ls, ValidName ls ∧ k.question.name = Name.ofLabels ls)
    (sr : ∀ s, r.soa = some s → s.Solid) (sk : ∀ s, k.soa = some s → s.Solid) :
    r.to_string x = k.to_string x ↔ r.question.name = k.question.name ∧ r.soa.map RRset.blur = k.soa.map RRset.blur := by
  have lay : ∀ r : NotifyRequest, r.question.name.WF → (∀ s, r.soa = some s → s.Solid) → ∃ n, r.question.name.to_string = .ok n ∧
      ((r.soa = none ∧ r.to_string x = .ok (ascii "notify for zone " ++ (n ++ (10 :: [])))) ∨
       ∃ s t, r.soa = some s ∧ s.Solid ∧ s.to_string x = .ok t ∧ r.to_string x = .ok (ascii "notify for zone " ++ (n ++ (10 :: (ascii "soa " ++ t ++ [10]))))) := by
    intro r hr hs
    obtain ⟨ls, v, hn⟩ := hr
    obtain ⟨n, n1, -⟩ := c05_prints v
    rw [← hn] at n1
    refine ⟨n, n1, ?_⟩
    have nl : ascii "\n" = [10] := by decide +kernel
    cases hso : r.soa with
    | none =>
      left
      refine ⟨rfl, ?_⟩
      unfold NotifyRequest.to_string
      rw [n1, hso, Res.bind_ok, nl]
      show Res.ok _ = _
      simp
    | some s =>
      right
      obtain ⟨t1, -⟩ := set_shown hx h0 (hs s hso)
      refine ⟨s, _, rfl, hs s hso, t1, ?_⟩
      unfold NotifyRequest.to_string
      rw [n1, hso, Res.bind_ok, nl]
      simp only [t1, Res.bind_ok, Res.pure_eq]
      simp
  obtain ⟨n, n1, hr'⟩ := lay r hr sr
  obtain ⟨l, l1, hk'⟩ := lay k hk sk
  constructor
  · intro h
    have cut : ∀ {a b : List UInt8}, ascii "notify for zone " ++ (n ++ (10 :: a)) = ascii "notify for zone " ++ (l ++ (10 :: b)) →
        r.question.name = k.question.name ∧ a = b := by
      intro a b e
      obtain ⟨h1, h2⟩ := name_cut hr hk n1 l1 (.inl (.inr ⟨10, _, rfl, .inr rfl⟩)) (.inl (.inr ⟨10, _, rfl, .inr rfl⟩)) (List.append_cancel_left e)
      exact ⟨h1, (List.cons.inj h2).2⟩
    rcases hr' with ⟨a1, a2⟩ | ⟨s, t, a1, a0, a2, a3⟩ <;> rcases hk' with ⟨b1, b2⟩ | ⟨s', t', b1, b0, b2, b3⟩
    · rw [a2, b2] at h
      exact ⟨(cut (Res.ok.inj h)).1, by rw [a1, b1]⟩
    · rw [a2, b3] at h
      have := (cut (Res.ok.inj h)).2
      simp at this
    · rw [a3, b2] at h
      have := (cut (Res.ok.inj h)).2
      simp at this
    · rw [a3, b3] at h
      obtain ⟨h1, h2⟩ := cut (Res.ok.inj h)
      have h2 : t = t' := List.append_cancel_left (List.append_cancel_right h2)
      refine ⟨h1, ?_⟩
      rw [a1, b1, Option.map_some, Option.map_some, (c91_set_exact x hx h0 s s' a0 b0).1 (by rw [a2, b2, h2])]
  · rintro ⟨h1, h2⟩
    have hn : n = l := by rw [h1, l1] at n1; exact (Res.ok.inj n1).symm
    rcases hr' with ⟨a1, a2⟩ | ⟨s, t, a1, a0, a2, a3⟩ <;> rcases hk' with ⟨b1, b2⟩ | ⟨s', t', b1, b0, b2, b3⟩
    · rw [a2, b2, hn]
    · rw [a1, b1] at h2; simp at h2
    · rw [a1, b1] at h2; simp at h2
    · rw [a1, b1, Option.map_some, Option.map_some] at h2
      have h2 := (c91_set_exact x hx h0 s s' a0 b0).2 (Option.some.inj h2)
      rw [a2, b2] at h2
      rw [a3, b3, hn, Res.ok.inj h2]

/-! ## telling apart -/

theorem FieldVal.Coded.blur {f : FieldVal} (h : f.Coded) : f.blur = f := by
  cases f <;> first | rfl | skip
  rename_i t
  cases t <;> first | rfl | exact absurd rfl (h.1 _) | exact absurd rfl h.2

theorem blur_fields {l : List FieldVal} (h : ∀ f ∈ l, f.Coded) : l.map FieldVal.blur = l := by
  induction l with
  | nil => rfl
  | cons f l ih => rw [List.map_cons, (h f (by simp)).blur, ih (fun g hg => h g (by simp [hg]))]

theorem blur_class {c : RRClass} (h : ∀ v, c ≠ .Unknown v) : c.blur = c := by cases c <;> first | rfl | exact absurd rfl (h _)

theorem RRset.Coded.solid {r : RRset} (h : r.Coded) : r.Solid := ⟨h.typed, h.some_, fun rd hrd => (h.data rd hrd).1⟩

theorem RRset.Coded.blur {r : RRset} (h : r.Coded) : r.blur = r := by
  have hd : r.rdatas.map RData.blur = r.rdatas := by
    have : ∀ l : List RData, (∀ d ∈ l, ∀ f ∈ d.fields, f.Coded) → l.map RData.blur = l := by
      intro l
      induction l with
      | nil => intro _; rfl
      | cons d l ih =>
        intro h
        rw [List.map_cons, ih (fun g hg => h g (by simp [hg]))]
        unfold RData.blur
        rw [blur_fields (h d (by simp))]
    exact this _ fun d hd => (h.data d hd).2
  unfold RRset.blur
  rw [hd, blur_class h.class_]

theorem Question.Coded.blur {q : Question} (h : q.Coded) : q.blur = q := by
  unfold Question.blur
  rw [blur_class h.class_]
  have : q.typ.blur = q.typ := by
    have := h.typ
    cases hq : q.typ <;> first | rfl | exact absurd hq (this.1 _) | exact absurd hq this.2
  rw [this]

theorem blur_records {l : List RRset} (h : ∀ r ∈ l, r.Coded) : (l.flatMap RRset.records).map RRset.blur = l.flatMap RRset.records := by
  induction l with
  | nil => rfl
  | cons r l ih =>
    rw [List.flatMap_cons, List.map_append, ih (fun g hg => h g (by simp [hg]))]
    congr 1
    have hr := h r (by simp)
    unfold RRset.records
    rw [if_neg hr.some_, List.map_map]
    apply List.map_congr_left
    intro rd hrd
    have : ({ r with rdatas := [rd] } : RRset).Coded :=
      ⟨⟨hr.typed.1, fun d hd => hr.typed.2 d (by simp at hd; rw [hd]; exact hrd)⟩, hr.class_, by simp, fun d hd => hr.data d (by simp at hd; rw [hd]; exact hrd)⟩
    exact this.blur

/-- two record sets with the same text are the same: owner, type (CERT included), class, TTL and all data in order, whatever octets
names and data have, empty strings included. Missing: classes without a name, and such types and CERT as the type an RRSIG covers
(`c91_violated`, exactly: `c91_set_exact`). -/
theorem c91_set_partial (x : Ext) (hx : x.Laws) (h0 : x.encode64 [] = []) (r s : RRset) (hr : r.Coded) (hs : s.Coded)
    (h : r.to_string x = s.to_string x) : r = s := by
  have := (c91_set_exact x hx h0 r s hr.solid hs.solid).1 h
  rwa [hr.blur, hs.blur] at this

/-- the data of two records of one type with the same text are the same -/
theorem c91_data_partial (x : Ext) (hx : x.Laws) (h0 : x.encode64 [] = []) (a b : RData) (ha : a.Typed) (hb : b.Typed) (hk : a.kind = b.kind)
    (ca : ∀ f ∈ a.fields, f.Coded) (cb : ∀ f ∈ b.fields, f.Coded) (h : a.to_str x = b.to_str x) : a = b := by
  have := (c91_data_exact x hx h0 a b ha hb hk).1 h
  unfold RData.blur at this
  rwa [blur_fields ca, blur_fields cb] at this

/-- two messages with the same text have the same header, question, records other than OPT in every section, and the same version, DO
flag and UDP size in the EDNS record, whatever octets names and data have. Missing: codes without a name of their own (`c91_violated`, exactly:
`c91_message_exact`); the extended rcode of EDNS and other OPT records are not printed (`c81_rcode_violated`). -/
theorem c91_message_partial (x : Ext) (hx : x.Laws) (h0 : x.encode64 [] = []) (m k : Response) (hm : m.Coded) (hk : k.Coded)
    (h : m.to_string x = k.to_string x) :
    m.header = k.header ∧ m.question = k.question ∧ (∀ s, Section.visibleRecords (m.section_ s) = Section.visibleRecords (k.section_ s)) ∧
    ∃ e f, m.get_edns = .ok e ∧ k.get_edns = .ok f ∧ ednsShown e = ednsShown f := by
  have solid : ∀ m : Response, m.Coded → m.Solid := fun m h => ⟨h.question.name, fun t s hs => (h.sections t s hs).solid⟩
  obtain ⟨h1, h2, h3, h4⟩ := (c91_message_exact x hx h0 m k (solid m hm) (solid k hk)).1 h
  have hh : m.header = k.header := by
    unfold Header.blur at h1
    rwa [hm.flag, hk.flag] at h1
  rw [hm.question.blur, hk.question.blur] at h2
  refine ⟨hh, h2, ?_, h4⟩
  have zero : ∀ {c : UInt16}, ¬ c > 0 → c = 0 := by
    intro c h
    apply UInt16.toNat_inj.1
    have : ¬ (0 : UInt16).toNat < c.toNat := fun h' => h (UInt16.lt_iff_toNat_lt.2 h')
    simp at this ⊢; omega
  have none_ : ∀ m : Response, m.Coded → ∀ t, m.header.counted t = 0 → Section.visible (m.section_ t) = [] := by
    intro m hm t ht
    cases t
    · exact hm.an ht
    · exact hm.ns ht
    · exact hm.ar ht
  intro s
  by_cases hc : m.header.counted s > 0
  · have := h3 s hc
    unfold Section.visibleRecords at this ⊢
    rwa [blur_records (hm.sections s), blur_records (hk.sections s)] at this
  · unfold Section.visibleRecords
    rw [none_ m hm s (zero hc), none_ k hk s (by rw [← hh]; exact zero hc)]

/-- two requests with the same text are the same -/
theorem c91_request_partial (r k : Request) (hr : r.question.Coded) (hk : k.question.Coded) (fr : r.header.flag &&& 0x87b0 = r.header.flag)
    (fk : k.header.flag &&& 0x87b0 = k.header.flag) (h : r.to_string = k.to_string) : r = k := by
  obtain ⟨h1, h2⟩ := (c91_request_exact r k hr.name hk.name).1 h
  rw [hr.blur, hk.blur] at h2
  unfold Header.blur at h1
  rw [fr, fk] at h1
  have h1 : r.header = k.header := h1
  cases r; cases k
  simp only at h1 h2
  rw [h1, h2]

/-- the texts of the standard library and of the crate `base64` meet the premises -/
theorem c91_std : stdExt.Laws ∧ stdExt.encode64 [] = [] := ⟨stdExt_laws, rfl⟩

namespace TellSample
/-- a name with a dot, a blank, a backslash, a zero and a large octet in its labels -/
def odd : Name := .ofLabels [[46, 32, 92], [0, 200]]
theorem odd_valid : ValidName [[46, 32, 92], [0, 200]] := by decide +kernel
/-- TXT records without a string, with an empty one, and with quotes -/
def txt : RRset := ⟨odd, .TXT, .IN, 0, [⟨.TXT, [.text []]⟩, ⟨.TXT, [.text [[]]]⟩, ⟨.TXT, [.text [[34, 92, 10, 255], [32]]]⟩]⟩
theorem txt_coded : txt.Coded where
  typed := ⟨⟨_, odd_valid, rfl⟩, by intro rd h; simp [txt] at h; rcases h with rfl | rfl | rfl <;> exact ⟨_, rfl, trivial, trivial⟩⟩
  class_ := by intro v h; cases h
  some_ := by simp [txt]
  data := by intro rd h; simp [txt] at h; rcases h with rfl | rfl | rfl <;> simp [FieldVal.Coded, txt]
/-- a message with that set as answer -/
def msg : Response := ⟨⟨7, 0x8180, .Query, .NoError, 1, 3, 0, 0⟩, ⟨odd, .TXT, .IN⟩, some [txt], none, none⟩
theorem msg_coded : msg.Coded := by
  refine ⟨⟨⟨_, odd_valid, rfl⟩, (by intro v h; cases h), (by intro v h; cases h), by simp [msg]⟩, ?_, (show (0x8180 : UInt16) &&& 0x87b0 = 0x8180 by decide), (by intro h; cases h), fun _ => rfl, fun _ => rfl⟩
  intro t s hs
  cases t
  · have : s = txt := by simpa [Section.visible, Response.section_, msg, txt] using hs
    subst this; exact txt_coded
  · simp [Section.visible, Response.section_, msg] at hs
  · simp [Section.visible, Response.section_, msg] at hs
end TellSample

/-- a set, and a message, that meet the premises without being readable (C70), and what they print as -/
theorem c91_example : TellSample.txt.Coded ∧ TellSample.msg.Coded ∧ TellSample.txt.to_string stdExt = .ok (ascii
    ("\\.\\032\\\\.\\000\\200.\t0\tIN\tTXT\t\n\\.\\032\\\\.\\000\\200.\t0\tIN\tTXT\t\"\"\n\\.\\032\\\\.\\000\\200.\t0\tIN\tTXT\t\"\\\"\\\\\\010\\255\"\" \"\n")) :=
  ⟨TellSample.txt_coded, TellSample.msg_coded, by decide +kernel⟩

/-- two different sets of a class without a name, signed for types that print alike, meet the premises of `c91_set_exact` and have one text -/
theorem c91_exact_example : let r := RRset.mk TextSample.www .RRSIG (.Unknown 100) 1 [TextSample.sig .CERT, TextSample.sig (.Unknown 1000)]
    let s := RRset.mk TextSample.www .RRSIG (.Unknown 101) 1 [TextSample.sig .URI, TextSample.sig (.Unknown 1001)]
    r ≠ s ∧ r.blur = s.blur ∧ r.to_string stdExt = s.to_string stdExt := by decide +kernel

/-- VIOLATION: classes without a name print alike, and so do the types covered by signatures if they have none, or are CERT and URI -/
theorem c91_violated : (RRset.mk TextSample.www .A (.Unknown 100) 1 [⟨.A, [.ip [1, 2, 3, 4]]⟩]).to_string stdExt =
      (RRset.mk TextSample.www .A (.Unknown 101) 1 [⟨.A, [.ip [1, 2, 3, 4]]⟩]).to_string stdExt ∧
    (TextSample.sig .CERT).to_str stdExt = (TextSample.sig .URI).to_str stdExt ∧
    (TextSample.sig (.Unknown 1000)).to_str stdExt = (TextSample.sig (.Unknown 1001)).to_str stdExt := by
  decide +kernel

end R53
