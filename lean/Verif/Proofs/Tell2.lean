import Verif.Proofs.Tell
/-!
# Texts of records tell records apart
-/
namespace R53

/-- types with data whose texts are equal are equal, but for CERT, which prints as URI -/
theorem type_tell {a b : RRType} {ca cb : List (Codec × Disp)} (ha : schema a = some ca) (hb : schema b = some cb) (h : a.to_str = b.to_str) :
    a = b ∨ (a = .CERT ∧ b = .URI) ∨ (a = .URI ∧ b = .CERT) := by
  have named : ∀ {t : RRType} {cs : List (Codec × Disp)}, schema t = some cs → t.Named := by
    intro t cs ht v hv; subst hv; simp [schema] at ht
  have uri : RRType.CERT.to_str = RRType.URI.to_str := by decide +kernel
  by_cases h1 : a = .CERT <;> by_cases h2 : b = .CERT
  · exact .inl (by rw [h1, h2])
  · subst h1
    exact .inr (.inl ⟨rfl, (c31_type_distinct_partial .URI b (by intro v hv; cases hv) (named hb) (by simp) h2 (uri.symm.trans h)).symm⟩)
  · subst h2
    exact .inr (.inr ⟨c31_type_distinct_partial a .URI (named ha) (by intro v hv; cases hv) h1 (by simp) (h.trans uri.symm), rfl⟩)
  · exact .inl (c31_type_distinct_partial a b (named ha) (named hb) h1 h2 h)

/-- the data of a CERT and of a URI record print differently -/
theorem cert_uri {x : Ext} {vs ws : List FieldVal} {cv cw : List (Codec × Disp)} (hv : schema .CERT = some cv) (hw : schema .URI = some cw)
    (tv : FieldsTyped cv vs) (tw : FieldsTyped cw ws) {t : List UInt8} (h1 : Field.allToStr x cv vs = .ok t) (h2 : Field.allToStr x cw ws = .ok t) : False := by
  simp only [schema, Option.some.injEq] at hv hw
  subst hv; subst hw
  match vs, tv with
  | [.u16 a, .u16 b, .u8 c, .bytes d], _ =>
    match ws, tw with
    | [.u16 a', .u16 b', .bytes d'], _ =>
      have e1 : t = decimal a.toNat ++ ([32] ++ (decimal b.toNat ++ ([32] ++ (decimal c.toNat ++ [32] ++ x.encode64 d)))) := by
        simp [Field.allToStr, Field.to_str, Res.bind_ok] at h1; simpa using h1.symm
      have e2 : t = decimal a'.toNat ++ ([32] ++ (decimal b'.toNat ++ ([32] ++ Field.string_to_str d'))) := by
        simp [Field.allToStr, Field.to_str, Res.bind_ok] at h2; simpa using h2.symm
      rw [e1] at e2
      have n : ∀ n, (32 : UInt8) ∉ decimal n := fun n => decimal_not n 32 (by decide)
      obtain ⟨-, e2⟩ := cutLit (d := 32) (rest := []) rfl (n _) (n _) e2
      obtain ⟨-, e2⟩ := cutLit (d := 32) (rest := []) rfl (n _) (n _) e2
      have k := decimal_digits c.toNat
      generalize decimal c.toNat = dc at e2 k
      cases dc with
      | nil => exact k.1 rfl
      | cons y ys =>
        have k := k.2 y (by simp)
        simp only [List.cons_append, Field.string_to_str, List.cons.injEq] at e2
        rw [e2.1] at k; revert k; decide

/-- the line of a record, without its line end; nothing for other sets -/
def RRset.shown (x : Ext) (r : RRset) : List UInt8 :=
  match r.to_string x with
  | .ok t => t.dropLast
  | _ => []

theorem line_parts {x : Ext} (r : RRset) (h : r.Solid) {rd : RData} (hrd : rd ∈ r.rdatas) :
    ∃ nt cs t, r.name.to_string = .ok nt ∧ r.name.WF ∧ (∀ c ∈ nt, Dark c) ∧ schema r.typ = some cs ∧ rd.kind = r.typ ∧ FieldsTyped cs rd.fields ∧
      Field.allToStr x cs rd.fields = .ok t ∧ rd.to_str x = .ok t ∧
      r.header = .ok (nt ++ [9] ++ decimal r.ttl.toNat ++ [9] ++ r.class_.to_str ++ [9] ++ r.typ.to_str) ∧
      ({ r with rdatas := [rd] } : RRset).to_string x =
        .ok (nt ++ [9] ++ decimal r.ttl.toNat ++ [9] ++ r.class_.to_str ++ [9] ++ r.typ.to_str ++ [9] ++ t ++ [10]) := by
  obtain ⟨⟨⟨ls, v, hn⟩, ht⟩, h3, h4⟩ := h
  obtain ⟨cs, k1, k2⟩ := ht rd hrd
  have kk := h4 rd hrd
  obtain ⟨nt, n1, n2⟩ := c05_prints v
  rw [← hn] at n1
  obtain ⟨t, a1⟩ := fields_total x cs rd.fields (schema_pairs k1) k2
  have a2 : rd.to_str x = .ok t := by unfold RData.to_str; rw [k1]; exact a1
  have hh := header_eq (r := r) n1
  refine ⟨nt, cs, t, n1, ⟨ls, v, hn⟩, n2, by rw [← kk]; exact k1, kk, k2, a1, a2, hh, ?_⟩
  have hh' : ({ r with rdatas := [rd] } : RRset).header = .ok (nt ++ [9] ++ decimal r.ttl.toNat ++ [9] ++ r.class_.to_str ++ [9] ++ r.typ.to_str) :=
    header_eq (r := { r with rdatas := [rd] }) n1
  unfold RRset.to_string RRset.linesOf RRset.line
  rw [hh', Res.bind_ok]
  show ((do let t ← rd.to_str x; _) >>= _) = _
  rw [a2]
  simp [Res.bind_ok, RRset.linesOf]

theorem shown_eq {x : Ext} (hx : x.Laws) (h0 : x.encode64 [] = []) {r : RRset} (h : r.Solid) {rd : RData} (hrd : rd ∈ r.rdatas) :
    ({ r with rdatas := [rd] } : RRset).to_string x = .ok (({ r with rdatas := [rd] } : RRset).shown x ++ [10]) ∧
    ({ r with rdatas := [rd] } : RRset).shown x ≠ [] ∧ 10 ∉ ({ r with rdatas := [rd] } : RRset).shown x := by
  obtain ⟨nt, cs, t, a1, a2, a3, a4, a5, a6, a7, a8, a9, a10⟩ := line_parts (x := x) r h hrd
  have e := a10
  have es : ({ r with rdatas := [rd] } : RRset).shown x = nt ++ [9] ++ decimal r.ttl.toNat ++ [9] ++ r.class_.to_str ++ [9] ++ r.typ.to_str ++ [9] ++ t := by
    unfold RRset.shown; rw [e]; simp only [List.dropLast_concat]
  have o := fields_octets hx h0 (schema_pairs a4) a6 a7
  have l10 : ¬ Dark 10 := by unfold Dark; decide
  have n10 : ¬ ((32 : UInt8) ≤ 10 ∧ (10 : UInt8) < 127) := by decide
  refine ⟨by rw [e, es], by rw [es]; simp, ?_⟩
  rw [es]
  simp only [List.mem_append, List.mem_singleton]
  rintro ((((((((h | h) | h) | h) | h) | h) | h) | h) | h)
  · exact l10 (a3 _ h)
  · exact absurd h (by decide)
  · exact l10 ((decimal_word _).2 _ h)
  · exact absurd h (by decide)
  · exact l10 ((class_word _).2 _ h)
  · exact absurd h (by decide)
  · exact l10 ((type_word _).2 _ h)
  · exact absurd h (by decide)
  · exact n10 (o _ h)

/-- two records with the same line are the same, as far as it is shown -/
theorem shown_inj {x : Ext} (hx : x.Laws) (h0 : x.encode64 [] = []) {r s : RRset} (hr : r.Solid) (hs : s.Solid) {rd sd : RData}
    (h1 : rd ∈ r.rdatas) (h2 : sd ∈ s.rdatas)
    (e : ({ r with rdatas := [rd] } : RRset).to_string x = ({ s with rdatas := [sd] } : RRset).to_string x) :
    ({ r with rdatas := [rd] } : RRset).blur = ({ s with rdatas := [sd] } : RRset).blur := by
  obtain ⟨nt, cs, t, a1, a2, a3, a4, a5, a6, a7, -, -, a10⟩ := line_parts (x := x) r hr h1
  obtain ⟨mt, ds, u, b1, b2, b3, b4, b5, b6, b7, -, -, b10⟩ := line_parts (x := x) s hs h2
  rw [a10, b10] at e
  have e := Res.ok.inj e
  simp only [List.append_assoc] at e
  have n9 : ∀ {t : List UInt8}, Word t → (9 : UInt8) ∉ t := fun h => word_not h 9 (by decide)
  obtain ⟨c1, e⟩ := name_cut a2 b2 a1 b1 (.inr rfl) (.inr rfl) e
  have e := List.append_cancel_left e
  obtain ⟨c2, e⟩ := cutLit (d := 9) (rest := []) rfl (n9 (decimal_word _)) (n9 (decimal_word _)) e
  obtain ⟨c3, e⟩ := cutLit (d := 9) (rest := []) rfl (n9 (class_word _)) (n9 (class_word _)) e
  obtain ⟨c4, e⟩ := cutLit (d := 9) (rest := []) rfl (n9 (type_word _)) (n9 (type_word _)) e
  have d2 : r.ttl = s.ttl := UInt32.toNat_inj.1 (decimal_inj c2)
  have d3 := class_blur c3
  have e' : t = u := List.append_cancel_right e
  have d4 : r.typ = s.typ := by
    rcases type_tell a4 b4 c4 with h | ⟨h, h'⟩ | ⟨h, h'⟩
    · exact h
    · rw [h] at a4; rw [h'] at b4; subst e'; exact (cert_uri a4 b4 a6 b6 a7 b7).elim
    · rw [h] at a4; rw [h'] at b4; subst e'; exact (cert_uri b4 a4 b6 a6 b7 a7).elim
  rw [d4, b4] at a4
  cases a4
  obtain ⟨d5, -⟩ := fields_tell hx h0 (schema_pairs b4) a6 b6 a7 b7 (.inl rfl) (.inl rfl) (by rw [e'])
  have d6 : rd.blur = sd.blur := by
    unfold RData.blur
    rw [d5]
    cases rd; cases sd
    simp only at a5 b5 ⊢
    rw [a5, b5, d4]
  obtain ⟨n, ty, c, tt, rds⟩ := r
  obtain ⟨n', ty', c', tt', rds'⟩ := s
  simp only [RRset.blur, List.map_cons, List.map_nil] at c1 d2 d3 d4 ⊢
  rw [c1, d2, d3, d4, d6]

/-- a set prints the lines of its records -/
theorem set_shown {x : Ext} (hx : x.Laws) (h0 : x.encode64 [] = []) {r : RRset} (h : r.Solid) :
    r.to_string x = .ok ((r.records.map (RRset.shown x)).flatMap (· ++ [10])) ∧ ∀ l ∈ r.records.map (RRset.shown x), l ≠ [] ∧ 10 ∉ l := by
  have rec_ : r.records = r.rdatas.map fun rd => { r with rdatas := [rd] } := by unfold RRset.records; rw [if_neg h.some_]
  constructor
  · rw [rec_, List.map_map]
    have key : ∀ rds : List RData, (∀ rd ∈ rds, rd ∈ r.rdatas) →
        r.linesOf x rds = .ok ((rds.map ((RRset.shown x) ∘ fun rd => { r with rdatas := [rd] })).flatMap (· ++ [10])) := by
      intro rds
      induction rds with
      | nil => intro _; rfl
      | cons rd rds ih =>
        intro hm
        obtain ⟨nt, cs, t, a1, a2, a3, a4, a5, a6, a7, a8, a9, a10⟩ := line_parts (x := x) r h (hm rd (by simp))
        have e := (shown_eq hx h0 h (hm rd (by simp))).1
        rw [a10] at e
        have e := Res.ok.inj e
        unfold RRset.linesOf RRset.line
        rw [a9, Res.bind_ok, a8, Res.bind_ok, Res.pure_eq, Res.bind_ok, ih (fun d hd => hm d (by simp [hd])), Res.bind_ok]
        rw [e]; rfl
    exact key r.rdatas (fun _ h => h)
  · rw [rec_, List.map_map]
    intro l hl
    obtain ⟨rd, h1, rfl⟩ := List.mem_map.1 hl
    exact (shown_eq hx h0 h h1).2

theorem map_inj_on {α β γ : Type} {f : α → β} {g : α → γ} : ∀ {u v : List α}, (∀ a ∈ u, ∀ b ∈ v, f a = f b → g a = g b) → u.map f = v.map f →
    u.map g = v.map g
  | [], [], _, _ => rfl
  | [], b :: v, _, h => by simp at h
  | a :: u, [], _, h => by simp at h
  | a :: u, b :: v, hf, h => by
    simp only [List.map_cons, List.cons.injEq] at h
    rw [List.map_cons, List.map_cons, hf a (by simp) b (by simp) h.1, map_inj_on (fun a ha b hb => hf a (by simp [ha]) b (by simp [hb])) h.2]

theorem records_inj_on {x : Ext} (hx : x.Laws) (h0 : x.encode64 [] = []) {u v : List RRset} (hu : ∀ r ∈ u, r.Solid) (hv : ∀ r ∈ v, r.Solid)
    (e : (u.flatMap RRset.records).map (RRset.shown x) = (v.flatMap RRset.records).map (RRset.shown x)) :
    (u.flatMap RRset.records).map RRset.blur = (v.flatMap RRset.records).map RRset.blur := by
  apply map_inj_on _ e
  intro a ha b hb hab
  obtain ⟨r, hr, ha⟩ := List.mem_flatMap.1 ha
  obtain ⟨s, hs, hb⟩ := List.mem_flatMap.1 hb
  unfold RRset.records at ha hb
  rw [if_neg (hu r hr).some_] at ha
  rw [if_neg (hv s hs).some_] at hb
  obtain ⟨rd, h1, rfl⟩ := List.mem_map.1 ha
  obtain ⟨sd, h2, rfl⟩ := List.mem_map.1 hb
  apply shown_inj hx h0 (hu r hr) (hv s hs) h1 h2
  rw [(shown_eq hx h0 (hu r hr) h1).1, (shown_eq hx h0 (hv s hs) h2).1, hab]

/-- the text of a section: the lines of its records other than OPT -/
theorem section_shown {x : Ext} (hx : x.Laws) (h0 : x.encode64 [] = []) (s : Section) (h : ∀ r ∈ Section.visible s, r.Solid) :
    s.to_string x = .ok (((Section.visibleRecords s).map (RRset.shown x)).flatMap (· ++ [10])) ∧
    ∀ l ∈ (Section.visibleRecords s).map (RRset.shown x), l ≠ [] ∧ 10 ∉ l := by
  have key : ∀ sets : List RRset, (∀ r ∈ Section.visible (some sets), r.Solid) →
      Section.showSets x sets = .ok (((Section.visibleRecords (some sets)).map (RRset.shown x)).flatMap (· ++ [10])) := by
    intro sets
    induction sets with
    | nil => intro _; rfl
    | cons r sets ih =>
      intro h
      by_cases ho : r.typ = .OPT
      · have e : Section.visible (some (r :: sets)) = Section.visible (some sets) := by
          unfold Section.visible; simp [ho]
        unfold Section.visibleRecords at ih ⊢
        rw [e] at h ⊢
        unfold Section.showSets
        rw [if_neg (by simpa using ho), Res.bind_ok, ih h]; rfl
      · have e : Section.visible (some (r :: sets)) = r :: Section.visible (some sets) := by
          unfold Section.visible; simp [ho]
        unfold Section.visibleRecords at ih ⊢
        rw [e] at h ⊢
        unfold Section.showSets
        rw [if_pos (by simpa using ho), (set_shown hx h0 (h r (by simp))).1, Res.bind_ok, ih (fun q hq => h q (by simp [hq]))]
        simp [Res.bind_ok]
  constructor
  · cases s with
    | none => rfl
    | some sets => exact key sets h
  · intro l hl
    unfold Section.visibleRecords at hl
    obtain ⟨a, ha, rfl⟩ := List.mem_map.1 hl
    obtain ⟨r, hr, ha⟩ := List.mem_flatMap.1 ha
    exact (set_shown hx h0 (h r hr)).2 _ (List.mem_map.2 ⟨a, ha, rfl⟩)

theorem coded_question_cut {q p : Question} (hq : q.name.WF) (hp : p.name.WF) {tq tp r s : List UInt8} (h1 : q.to_string = .ok tq)
    (h2 : p.to_string = .ok tp) (e : tq ++ (ascii "\n\n" ++ r) = tp ++ (ascii "\n\n" ++ s)) : q.blur = p.blur ∧ r = s := by
  have text : ∀ q : Question, q.name.WF → ∃ nt, q.name.to_string = .ok nt ∧
      q.to_string = .ok (nt ++ ascii " " ++ q.class_.to_str ++ ascii " " ++ q.typ.to_str) := by
    intro q hq
    obtain ⟨ls, v, hn⟩ := hq
    obtain ⟨nt, n1, -⟩ := c05_prints v
    rw [← hn] at n1
    refine ⟨nt, n1, ?_⟩
    unfold Question.to_string
    rw [n1, Res.bind_ok]; rfl
  obtain ⟨nq, a1, a4⟩ := text q hq
  obtain ⟨np, b1, b4⟩ := text p hp
  rw [h1] at a4; cases a4
  rw [h2] at b4; cases b4
  simp only [List.append_assoc] at e
  rw [show ascii " " = [32] by decide +kernel] at e
  obtain ⟨c1, e⟩ := name_cut hq hp a1 b1 (.inl (.inr ⟨32, _, rfl, .inl rfl⟩)) (.inl (.inr ⟨32, _, rfl, .inl rfl⟩)) e
  have e := (List.cons.inj e).2
  change _ ++ ([32] ++ _) = _ ++ ([32] ++ _) at e
  obtain ⟨c2, e⟩ := cutLit (d := 32) (rest := []) rfl (word_not (class_word _) 32 (by decide)) (word_not (class_word _) 32 (by decide)) e
  obtain ⟨c3, e⟩ := cutLit (d := 10) (rest := [10]) (by decide +kernel) (word_not (type_word _) 10 (by decide)) (word_not (type_word _) 10 (by decide)) e
  refine ⟨?_, e⟩
  have c := class_blur c2
  have t := type_blur c3
  cases q; cases p; simp_all [Question.blur]

/-! ## what is not shown does not matter -/

theorem header_shown_blur (r : RRset) : r.blur.header = r.header := by
  unfold RRset.header
  show (r.name.to_string >>= _) = _
  simp only [RRset.blur, class_shown]

theorem set_blur_shown (x : Ext) (r : RRset) : r.blur.to_string x = r.to_string x := by
  have key : ∀ l : List RData, r.blur.linesOf x (l.map RData.blur) = r.linesOf x l := by
    intro l
    induction l with
    | nil => rfl
    | cons d l ih =>
      rw [List.map_cons]
      unfold RRset.linesOf RRset.line
      rw [header_shown_blur, data_shown, ih]
  exact key r.rdatas

theorem question_blur_shown (q : Question) : q.blur.to_string = q.to_string := by
  unfold Question.to_string
  simp only [Question.blur, class_shown, type_shown]

theorem flags_blur (v : UInt16) : HeaderFlag.setted_flags (v &&& 0x87b0) = HeaderFlag.setted_flags v := by
  have key : ∀ f, HeaderFlag.is_flag_set (v &&& 0x87b0) f = HeaderFlag.is_flag_set v f := by
    intro f
    unfold HeaderFlag.is_flag_set
    rw [UInt16.and_assoc]
    congr 2
    cases f <;> decide
  unfold HeaderFlag.setted_flags
  congr 1
  funext f
  exact key f

theorem flag_blur {v w : UInt16} (h : HeaderFlag.setted_flags v = HeaderFlag.setted_flags w) : v &&& 0x87b0 = w &&& 0x87b0 := by
  have idem : ∀ v : UInt16, v &&& 0x87b0 &&& 0x87b0 = v &&& 0x87b0 := by
    intro v; rw [UInt16.and_assoc]; congr 1
  exact flag_eq (idem v) (idem w) (by rw [flags_blur, flags_blur, h])

theorem header_blur_shown (h : Header) : h.blur.to_string = h.to_string := by
  unfold Header.to_string Header.setted_flags
  simp only [Header.blur, flags_blur]

end R53
