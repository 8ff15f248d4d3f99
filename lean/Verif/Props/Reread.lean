import Verif.Props.TextExact
/-!
# C107: what was read, printed and read again
-/
namespace R53
open StrBuf StdText

/-- the types a record set names: its own, and those its data covers -/
def FieldVal.types : FieldVal → List RRType
  | .rrtype t => [t]
  | _ => []
def RRset.types (s : RRset) : List RRType := s.typ :: s.rdatas.flatMap fun rd => rd.fields.flatMap FieldVal.types

theorem word_suffix {s w rest : List UInt8} (h : FirstWord s w rest) : rest <:+ s := by
  obtain ⟨b, rfl, _⟩ := h
  exact ⟨b ++ w, rfl⟩

theorem quoted_suffix {s d rest : List UInt8} (h : CharStringThen s d rest) : rest <:+ s := by
  obtain ⟨b, body, rfl, _⟩ := h
  exact ⟨b ++ [34] ++ body ++ [34], rfl⟩

theorem field_suffix {k : Disp} {s : List UInt8} {v : FieldVal} {rest : List UInt8} (h : FieldText k s v rest) : rest <:+ s := by
  cases k <;> cases v <;> simp only [FieldText] at h <;>
    first
    | exact h.elim
    | (obtain ⟨h, _⟩ := h; exact word_suffix h)
    | (obtain ⟨w, h, _⟩ := h; exact word_suffix h)
    | (obtain ⟨w, vs, h, _⟩ := h; exact word_suffix h)
    | exact quoted_suffix h
    | (obtain ⟨_, rfl⟩ := h; exact List.nil_suffix)
    | (obtain ⟨_, rfl, _⟩ := h; exact List.nil_suffix)

theorem strings_long {s : List UInt8} {ds : List (List UInt8)} (h : CharStrings s ds) : ds ≠ [] ∧ ∀ d ∈ ds, d ≠ [] ∧ d.length ≤ 255 := by
  induction h with
  | one h =>
    obtain ⟨_, _, _, _, _, h1, h2⟩ := h
    refine ⟨by simp, fun d hd => ?_⟩
    obtain rfl := List.mem_singleton.1 hd
    exact ⟨List.length_pos_iff.mp h1, h2⟩
  | more h _ ih =>
    obtain ⟨_, _, _, _, _, h1, h2⟩ := h
    refine ⟨by simp, fun d hd => ?_⟩
    rcases List.mem_cons.1 hd with rfl | hd
    · exact ⟨List.length_pos_iff.mp h1, h2⟩
    · exact ih.2 d hd

theorem spells_some {w d : List UInt8} (h : HexSpec.Spells w d) : d = [] → ∀ c ∈ w, HexSpec.white c := by
  induction h with
  | nil => simp
  | white h _ ih =>
    intro hb c hc
    rcases List.mem_cons.1 hc with rfl | hc
    · exact h
    · exact ih hb c hc
  | byte => simp

theorem spaced_blank {s t : List UInt8} (h : Spaced s t) : t = [] → s ≠ [] → ∃ u ∈ spaceChars, u <:+ s := by
  induction h with
  | nil => intro _ h; exact absurd rfl h
  | char => intro h; cases h
  | @space u s t hu hs ih =>
    intro ht _
    by_cases h : s = []
    · exact ⟨u, hu, by rw [h, List.append_nil]; exact List.suffix_refl _⟩
    · obtain ⟨v, hv, k⟩ := ih ht h
      exact ⟨v, hv, k.trans (List.suffix_append _ _)⟩

/-- what the text of a field denotes can be printed, but for names and types that are not printed as they are -/
theorem field_printable {k : Disp} {s : List UInt8} {v : FieldVal} {rest : List UInt8} (hend : ∀ u ∈ spaceChars, ¬ u <:+ s) (h : FieldText k s v rest) :
    v.Printable k ↔ (∀ n ∈ v.names, PlainName n) ∧ .CERT ∉ v.types := by
  have hw : ∀ {w r : List UInt8}, FirstWord s w r → w ≠ [] ∧ ∀ c ∈ w, ¬ HexSpec.white c := by
    rintro w r ⟨_, _, _, h1, h2, _⟩
    have key : ∀ c : UInt8, HexSpec.white c → Blank c := by apply forall_u8'; decide +kernel
    exact ⟨h1, fun c hc hb => h2 c hc (key c hb)⟩
  cases k <;> cases v <;> simp only [FieldText] at h <;> simp only [FieldVal.Printable, FieldVal.names, FieldVal.types]
  all_goals try exact h.elim
  all_goals try simp only [List.mem_singleton, List.not_mem_nil, forall_eq, false_implies, implies_true, true_and, not_false_eq_true, and_true, iff_true]
  · exact h.2
  · obtain ⟨w, vs, _, h, rfl⟩ := h
    have h8 : vs.length = 8 := by
      cases h with
      | full _ h => exact h
      | short _ _ h _ => simp; omega
    have : ∀ vs : List Nat, (pieceOctets vs).length = 2 * vs.length := by
      intro vs
      induction vs with
      | nil => rfl
      | cons a vs ih => rw [pieceOctets, List.flatMap_cons, List.length_append, ← pieceOctets, ih]; simp; omega
    rw [this, h8]
  · obtain ⟨w, _, p, hp, _, rfl⟩ := h
    have : ∀ p ∈ ianaTypes, ∀ v, RRType.new (UInt16.ofNat p.1) ≠ .Unknown v := by
      intro p hp v hv
      have : ∀ p ∈ ianaTypes, (match RRType.new (UInt16.ofNat p.1) with | .Unknown _ => false | _ => true) = true := by decide +kernel
      have := this p hp
      rw [hv] at this; cases this
    constructor
    · rintro ⟨_, h⟩ h'; exact h h'.symm
    · intro h; exact ⟨this p hp, fun h' => h h'.symm⟩
  · exact strings_long h.1
  · obtain ⟨_, _, _, _, _, h1, h2⟩ := h
    exact ⟨List.length_pos_iff.mp h1, h2⟩
  · obtain ⟨w, h1, h2⟩ := h
    intro hd
    obtain ⟨h3, h4⟩ := hw h1
    cases w with
    | nil => exact h3 rfl
    | cons c w => exact h4 c (by simp) (spells_some h2 hd c (by simp))
  · obtain ⟨h1, _, t, n, h2, h3⟩ := h
    intro hd
    rw [hd] at h3
    have ht : t = [] := (List.append_eq_nil_iff.1 h3).1
    obtain ⟨u, hu, k⟩ := spaced_blank h2 ht h1
    exact hend u hu k

theorem fields_printable : ∀ {cs : List (Codec × Disp)} {s : List UInt8} {vs : List FieldVal} {rest : List UInt8}, (∀ u ∈ spaceChars, ¬ u <:+ s) →
    FieldsText (cs.map Prod.snd) s vs rest → (FieldsPrintable cs vs ↔ (∀ n ∈ vs.flatMap FieldVal.names, PlainName n) ∧ .CERT ∉ vs.flatMap FieldVal.types)
  | [], s, vs, rest, _, h => by obtain ⟨rfl, _⟩ := h; simp [FieldsPrintable]
  | c :: cs, s, [], rest, _, h => h.elim
  | c :: cs, s, v :: vs, rest, hs, h => by
    obtain ⟨mid, h1, h2⟩ := h
    have i1 := field_printable hs h1
    have i2 := fields_printable (fun u hu k => hs u hu (k.trans (field_suffix h1))) h2
    simp only [FieldsPrintable, i1, i2, List.flatMap_cons, List.mem_append]
    constructor
    · rintro ⟨⟨a, b⟩, c, d⟩
      exact ⟨fun n hn => hn.elim (a n) (c n), fun h => h.elim b d⟩
    · rintro ⟨a, b⟩
      exact ⟨⟨fun n hn => a n (.inl hn), fun h => b (.inl h)⟩, fun n hn => a n (.inr hn), fun h => b (.inr h)⟩

theorem class_named {w : List UInt8} {c : RRClass} (h : ClassText w c) : ∀ v, c ≠ .Unknown v := by
  obtain ⟨p, hp, _, rfl⟩ := h
  intro v hv
  have : ∀ p ∈ ianaClasses, (match RRClass.new (UInt16.ofNat p.1) with | .Unknown _ => false | _ => true) = true := by decide +kernel
  have := this p hp
  rw [hv] at this; cases this

/-- of one line -/
theorem line_printable {s t : List UInt8} {r : RRset} (ht : Trimmed s t) (h : SetText t r) :
    (∀ v, r.class_ ≠ .Unknown v) ∧ ∃ rd, r.rdatas = [rd] ∧ rd.kind = r.typ ∧
      (rd.Printable ↔ (∀ n ∈ rd.fields.flatMap FieldVal.names, PlainName n) ∧ .CERT ∉ rd.fields.flatMap FieldVal.types) := by
  obtain ⟨wn, s1, wt, s2, s3, rd, f1, _, f2, _, f3, hk, ⟨rest, ks, hf, hd⟩, hr⟩ := h
  obtain ⟨hc, hs⟩ : (∀ v, r.class_ ≠ .Unknown v) ∧ s3 <:+ s2 := by
    rcases f3 with ⟨wc, s2', wy, a1, a2, a3, a4⟩ | ⟨wy, a1, a2, a3⟩
    · exact ⟨class_named a2, (word_suffix a3).trans (word_suffix a1)⟩
    · exact ⟨(fun v hv => by rw [a3] at hv; cases hv), word_suffix a1⟩
  have hsuf : s3 <:+ t := hs.trans ((word_suffix f2).trans (word_suffix f1))
  refine ⟨hc, rd, hr, hk, ?_⟩
  rw [schema_form] at hf
  cases hsch : schema rd.kind with
  | none => rw [hsch] at hf; cases hf
  | some cs =>
    rw [hsch] at hf
    obtain rfl : cs.map Prod.snd = ks := by simpa using hf
    obtain ⟨_, _, _, _, _, _, hend⟩ := ht
    rw [← fields_printable (cs := cs) (fun u hu k => hend u hu (k.trans hsuf)) hd]
    unfold RData.Printable
    rw [hsch]
    simp

/-- the pairs of encoding and notation there are -/
def notations : List (Codec × Disp) := [(.name, .name), (.ipv4, .ipv4), (.ipv6, .ipv6), (.u8, .u8), (.u16, .u16), (.u32, .u32), (.u32, .timestamp), (.rrtype, .rrtype),
  (.text, .text), (.byte_binary, .string), (.byte_binary, .binary), (.binary, .binary), (.binary, .string), (.binary, .base64)]

theorem schema_notations {t : RRType} {cs : List (Codec × Disp)} (h : schema t = some cs) : ∀ p ∈ cs, p ∈ notations := by
  have : ∀ p ∈ cs, p ∈ notations := by
    cases t <;> simp only [schema, Option.some.injEq, reduceCtorEq] at h <;> subst h <;> decide +kernel
  exact this

theorem field_typed {p : Codec × Disp} (hp : p ∈ notations) {s : List UInt8} {v : FieldVal} {rest : List UInt8} (h : FieldText p.2 s v rest)
    (hn : ∀ n ∈ v.names, n.WF) : FieldTyped p.1 v := by
  have h6 : ∀ vs : List Nat, (pieceOctets vs).length = 2 * vs.length := by
    intro vs
    induction vs with
    | nil => rfl
    | cons a vs ih => rw [pieceOctets, List.flatMap_cons, List.length_append, ← pieceOctets, ih]; simp; omega
  simp only [notations, List.mem_cons, List.not_mem_nil, or_false] at hp
  rcases hp with rfl | rfl | rfl | rfl | rfl | rfl | rfl | rfl | rfl | rfl | rfl | rfl | rfl | rfl <;> cases v <;> simp only [FieldText] at h <;>
    simp only [FieldTyped] <;> first | exact h.elim | trivial | exact h.2 | skip
  · exact hn _ (by simp [FieldVal.names])
  · obtain ⟨w, vs, _, h, rfl⟩ := h
    rw [h6]
    cases h with
    | full _ h => omega
    | short _ _ h _ => simp; omega

theorem fields_typed : ∀ {cs : List (Codec × Disp)} (_ : ∀ p ∈ cs, p ∈ notations) {s : List UInt8} {vs : List FieldVal} {rest : List UInt8},
    FieldsText (cs.map Prod.snd) s vs rest → (∀ n ∈ vs.flatMap FieldVal.names, n.WF) → FieldsTyped cs vs
  | [], _, s, vs, rest, h, _ => by obtain ⟨rfl, _⟩ := h; trivial
  | c :: cs, _, s, [], rest, h, _ => h.elim
  | c :: cs, hc, s, v :: vs, rest, h, hn => by
    obtain ⟨mid, h1, h2⟩ := h
    rw [List.flatMap_cons] at hn
    exact ⟨field_typed (hc c (by simp)) h1 fun n hm => hn n (by simp [hm]),
      fields_typed (fun p hp => hc p (by simp [hp])) h2 fun n hm => hn n (List.mem_append_right _ hm)⟩

/-- **C107** Whatever lines a record set was read from, it is printed, one line for each record, and reading these lines gives the very same set if and only if
all octets of its names print as themselves and CERT, printed as URI, is not among the types it names. (Names of at most 255 octets: all but those of C04.) -/
theorem c107_exact (m : Build) (ss : List (List UInt8)) (hu : ∀ s ∈ ss, isUtf8 s = true) (r : RRset) (h : RRset.from_strs stdExt m ss = .ok r)
    (hw : ∀ n ∈ r.names, n.WF) :
    ∃ lines : List (List UInt8), r.to_string stdExt = .ok (lines.flatMap (· ++ [10])) ∧ (∀ l ∈ lines, 10 ∉ l) ∧ lines.length = ss.length ∧
      (RRset.from_strs stdExt m lines = .ok r ↔ (∀ n ∈ r.names, PlainName n) ∧ .CERT ∉ r.types) := by
  obtain ⟨q, qs, h1, ⟨h2, h3⟩, hr⟩ := (c84_sets_iff m ss hu r).mp h
  have hq : ∀ p ∈ q :: qs, ∃ s t, Trimmed s t ∧ SetText t p := by
    have : ∀ {ss : List (List UInt8)} {ps : List RRset}, List.Forall₂ (fun s p => ∃ t, Trimmed s t ∧ SetText t p) ss ps → ∀ p ∈ ps, ∃ s t, Trimmed s t ∧ SetText t p := by
      intro ss ps h
      induction h with
      | nil => simp
      | cons h _ ih =>
        intro p hp
        rcases List.mem_cons.1 hp with rfl | hp
        · exact ⟨_, h⟩
        · exact ih p hp
    exact this h1
  have hrd : r.rdatas = (q :: qs).flatMap RRset.rdatas := by rw [hr]; rfl
  have hty : ∀ p ∈ q :: qs, p.typ = r.typ := by
    intro p hp
    rw [hr]
    rcases List.mem_cons.1 hp with rfl | hp
    · rfl
    · exact h2 p hp
  have hlen : r.rdatas.length = ss.length := by
    have hone : ∀ ps : List RRset, (∀ p ∈ ps, ∃ s t, Trimmed s t ∧ SetText t p) → (ps.flatMap RRset.rdatas).length = ps.length := by
      intro ps
      induction ps with
      | nil => intro _; rfl
      | cons p ps ih =>
        intro hps
        obtain ⟨s, t, a, b⟩ := hps p (by simp)
        obtain ⟨_, rd, hrd, _⟩ := line_printable a b
        rw [List.flatMap_cons, List.length_append, hrd, ih fun x hx => hps x (by simp [hx])]
        simp; omega
    rw [hrd, hone _ hq, ← (forall₂_get h1).1]
  have hdata : ∀ rd ∈ r.rdatas, ∃ p ∈ q :: qs, p.rdatas = [rd] ∧ rd.kind = r.typ ∧
      (rd.Printable ↔ (∀ n ∈ rd.fields.flatMap FieldVal.names, PlainName n) ∧ .CERT ∉ rd.fields.flatMap FieldVal.types) ∧ rd.Typed := by
    intro rd hm
    have hm' := hm
    rw [hrd] at hm
    obtain ⟨p, hp, hm⟩ := List.mem_flatMap.1 hm
    obtain ⟨s, t, a, b⟩ := hq p hp
    obtain ⟨_, rd', e1, e2, e3⟩ := line_printable a b
    rw [e1] at hm
    obtain rfl := List.mem_singleton.1 hm
    refine ⟨p, hp, e1, by rw [e2, hty p hp], e3, ?_⟩
    obtain ⟨wn, s1, wt, s2, s3, rd'', f1, _, f2, _, f3, hk, ⟨rest, ks, hf, hd⟩, hr'⟩ := b
    rw [e1] at hr'
    obtain rfl : rd = rd'' := by simpa using hr'
    rw [schema_form] at hf
    cases hsch : schema rd.kind with
    | none => rw [hsch] at hf; cases hf
    | some cs =>
      rw [hsch] at hf
      obtain rfl : cs.map Prod.snd = ks := by simpa using hf
      exact ⟨cs, hsch, fields_typed (schema_notations hsch) hd fun n hn => hw n (List.mem_cons_of_mem _ (List.mem_flatMap.2 ⟨rd, hm', hn⟩))⟩
  have htyped : r.Typed := ⟨hw _ (by simp [RRset.names]), fun rd hm => (hdata rd hm).choose_spec.2.2.2.2⟩
  obtain ⟨lines, a1, a2, a3, _, a4⟩ := c70_exact m r htyped
  refine ⟨lines, a1, a2, by rw [a3, hlen], ?_⟩
  rw [a4]
  have hcls : ∀ v, r.class_ ≠ .Unknown v := by
    obtain ⟨s, t, a, b⟩ := hq q (by simp)
    rw [hr]
    exact (line_printable a b).1
  have hne : r.rdatas ≠ [] := by
    obtain ⟨s, t, a, b⟩ := hq q (by simp)
    obtain ⟨_, rd, e, _⟩ := line_printable a b
    rw [hr]; simp [e]
  have hopt : r.rdatas.length = 1 ∨ r.typ ≠ .OPT := by
    by_cases hqs : qs = []
    · left
      rw [hlen, (forall₂_get h1).1, hqs]; rfl
    · right
      rw [hr]
      exact h3 hqs
  constructor
  · rintro ⟨⟨b1, b2, b3, b4, b5⟩, _⟩
    refine ⟨fun n hn => ?_, fun hc => ?_⟩
    · rcases List.mem_cons.1 hn with rfl | hn
      · exact b1
      · obtain ⟨rd, hm, hn⟩ := List.mem_flatMap.1 hn
        exact ((hdata rd hm).choose_spec.2.2.2.1.mp (b5 rd hm).2).1 n hn
    · rcases List.mem_cons.1 hc with hc | hc
      · exact b3 hc.symm
      · obtain ⟨rd, hm, hc⟩ := List.mem_flatMap.1 hc
        exact ((hdata rd hm).choose_spec.2.2.2.1.mp (b5 rd hm).2).2 hc
  · rintro ⟨b1, b2⟩
    refine ⟨⟨b1 _ (by simp [RRset.names]), hcls, fun hc => b2 (by simp [RRset.types, hc]), hne, fun rd hm => ?_⟩, hopt⟩
    have hd := (hdata rd hm).choose_spec
    exact ⟨hd.2.2.1, hd.2.2.2.1.mpr ⟨fun n hn => b1 n (List.mem_cons_of_mem _ (List.mem_flatMap.2 ⟨rd, hm, hn⟩)),
      fun hc => b2 (List.mem_cons_of_mem _ (List.mem_flatMap.2 ⟨rd, hm, hc⟩))⟩⟩

theorem fits_names : ∀ {cs : List (Codec × Disp)} {vs : List FieldVal}, FieldsFit cs vs → ∀ n ∈ vs.flatMap FieldVal.names, n.WF
  | [], [], _, n, hn => by simp at hn
  | c :: cs, v :: vs, h, n, hn => by
    rw [List.flatMap_cons] at hn
    rcases List.mem_append.1 hn with hn | hn
    · obtain ⟨h1, _⟩ := h
      cases v <;> simp only [FieldVal.names, List.mem_singleton, List.not_mem_nil] at hn
      subst hn
      obtain ⟨k, d⟩ := c
      cases k <;> simp only [FieldFits] at h1
      exact h1
    · exact fits_names h.2 n hn

/-- no condition on the names is needed if no line has a backslash or is longer than 510 octets -/
theorem c107_lines_exact (m : Build) (ss : List (List UInt8)) (hu : ∀ s ∈ ss, PlainLine s) (r : RRset) (h : RRset.from_strs stdExt m ss = .ok r) :
    ∃ lines : List (List UInt8), r.to_string stdExt = .ok (lines.flatMap (· ++ [10])) ∧ (∀ l ∈ lines, 10 ∉ l) ∧ lines.length = ss.length ∧
      (RRset.from_strs stdExt m lines = .ok r ↔ (∀ n ∈ r.names, PlainName n) ∧ .CERT ∉ r.types) := by
  refine c107_exact m ss (fun s hs => (hu s hs).1) r h fun n hn => ?_
  have hf := c78_std m ss hu r h 65535 (Nat.le_refl _)
  rcases List.mem_cons.1 hn with rfl | hn
  · exact hf.name
  · obtain ⟨rd, hm, hn⟩ := List.mem_flatMap.1 hn
    obtain ⟨cs, _, h2⟩ := (hf.data rd hm).2.1
    exact fits_names h2 n hn

namespace RereadSample
def lines : List (List UInt8) := [ascii "Www.a. 300 mx +010 b.", ascii " www.b.\t7 CH MX 20 c.\n"]
def set : RRset := ⟨Name.ofLabels [[87, 119, 119], [97]], .MX, .IN, 300, [⟨.MX, [.u16 10, .name (Name.ofLabels [[98]])]⟩, ⟨.MX, [.u16 20, .name (Name.ofLabels [[99]])]⟩]⟩

theorem plain_lines : ∀ s ∈ lines, PlainLine s := by unfold PlainLine; decide +kernel

theorem read : RRset.from_strs stdExt .debug lines = .ok set := by decide +kernel

/-- the premises are met, and both sides of the equivalence: two lines of mixed notation are printed in one notation, and read again -/
theorem c107_example : (∀ s ∈ lines, PlainLine s) ∧ RRset.from_strs stdExt .debug lines = .ok set ∧ ((∀ n ∈ set.names, PlainName n) ∧ .CERT ∉ set.types) ∧
    set.to_string stdExt = .ok (ascii "Www.a.\t300\tIN\tMX\t10 b.\nWww.a.\t300\tIN\tMX\t20 c.\n") := by
  refine ⟨plain_lines, read, ⟨?_, by decide⟩, by decide +kernel⟩
  intro n hn
  simp only [set, RRset.names, List.flatMap_cons, List.flatMap_nil, FieldVal.names, List.nil_append, List.append_nil, List.cons_append, List.mem_cons, List.not_mem_nil, or_false] at hn
  rcases hn with rfl | rfl | rfl
  · exact ⟨_, by decide, rfl, by decide⟩
  · exact ⟨_, by decide, rfl, by decide⟩
  · exact ⟨_, by decide, rfl, by decide⟩

/-- a name with a semicolon, and the type CERT, are read; the text printed is read with another name (one semicolon more each time), or refused -/
theorem c107_violated :
    (RRset.from_strs stdExt .release [ascii "a;b. 1 A 1.2.3.4"] = .ok ⟨Name.ofLabels [[97, 59, 98]], .A, .IN, 1, [⟨.A, [.ip [1, 2, 3, 4]]⟩]⟩ ∧
      RRset.to_string stdExt ⟨Name.ofLabels [[97, 59, 98]], .A, .IN, 1, [⟨.A, [.ip [1, 2, 3, 4]]⟩]⟩ = .ok (ascii "a\\;b.\t1\tIN\tA\t1.2.3.4\n") ∧
      RRset.from_strs stdExt .release [ascii "a\\;b.\t1\tIN\tA\t1.2.3.4"] = .ok ⟨Name.ofLabels [[97, 59, 59, 98]], .A, .IN, 1, [⟨.A, [.ip [1, 2, 3, 4]]⟩]⟩) ∧
    (RRset.from_strs stdExt .release [ascii "a. 1 CERT 1 2 3 Zm9v"] = .ok ⟨Name.ofLabels [[97]], .CERT, .IN, 1, [⟨.CERT, [.u16 1, .u16 2, .u8 3, .bytes (ascii "foo")]⟩]⟩ ∧
      RRset.to_string stdExt ⟨Name.ofLabels [[97]], .CERT, .IN, 1, [⟨.CERT, [.u16 1, .u16 2, .u8 3, .bytes (ascii "foo")]⟩]⟩ = .ok (ascii "a.\t1\tIN\tURI\t1 2 3 Zm9v\n") ∧
      RRset.from_strs stdExt .release [ascii "a.\t1\tIN\tURI\t1 2 3 Zm9v"] = .err) := by
  refine ⟨⟨by decide +kernel, by decide +kernel, by decide +kernel⟩, by decide +kernel, by decide +kernel, by decide +kernel⟩
end RereadSample

end R53
