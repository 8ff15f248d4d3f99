import Verif.Proofs.Text6
import Verif.Props.Codes
import Verif.Props.Hex
import Verif.Spec.Message
/-!
# What is parsed from text has the fields of its type
-/
namespace R53
open StrBuf

/-- on what is left of a text (at most 510 octets without backslash if `N`): a success gives a value with `P`, and leaves a text -/
def Gives (N : Prop) {α : Type} (m : St StrBuf α) (P : α → Prop) : Prop :=
  ∀ pre rest, isUtf8 rest = true → (N → rest.length ≤ 510 ∧ ∀ c ∈ rest, c ≠ 92) → ∀ v s', m (cur pre rest) = (.ok v, s') →
    P v ∧ ∃ pre' rest', s' = cur pre' rest' ∧ isUtf8 rest' = true ∧ ∃ mid, rest = mid ++ rest'

namespace Gives
variable {N : Prop} {α β : Type}

theorem pure {P : α → Prop} {a : α} (h : P a) : Gives N (Pure.pure a : St StrBuf α) P := by
  intro pre rest hu _ v s' he
  cases he
  exact ⟨h, pre, rest, rfl, hu, [], rfl⟩

theorem fail {P : α → Prop} : Gives N (St.fail : St StrBuf α) P := by
  intro pre rest hu _ v s' he
  cases he

theorem lift {P : α → Prop} {r : Res α} (h : ∀ v, r = .ok v → P v) : Gives N (St.lift r : St StrBuf α) P := by
  intro pre rest hu _ v s' he
  obtain ⟨h1, rfl⟩ : r = .ok v ∧ cur pre rest = s' := by
    have : St.lift r (cur pre rest) = (r, cur pre rest) := rfl
    rw [this] at he; simpa using he
  exact ⟨h v h1, pre, rest, rfl, hu, [], rfl⟩

theorem bind {P : α → Prop} {Q : β → Prop} {m : St StrBuf α} {f : α → St StrBuf β} (h1 : Gives N m P) (h2 : ∀ a, P a → Gives N (f a) Q) :
    Gives N (m >>= f) Q := by
  intro pre rest hu hn v s'' he
  obtain ⟨a, s', e1, e2⟩ := St.bind_ok_inv he
  obtain ⟨hP, pre', rest', rfl, hu', mid, hr⟩ := h1 pre rest hu hn a s' e1
  obtain ⟨hQ, pre'', rest'', rfl, hu'', mid', hr'⟩ := h2 a hP pre' rest' hu' (fun h => by
    obtain ⟨k1, k2⟩ := hn h
    rw [hr] at k1 k2
    exact ⟨by simp at k1; omega, fun c hc => k2 c (by simp [hc])⟩) v s'' e2
  exact ⟨hQ, pre'', rest'', rfl, hu'', mid ++ mid', by rw [hr, hr']; simp⟩

theorem mono {P Q : α → Prop} {m : St StrBuf α} (h1 : Gives N m P) (h2 : ∀ a, P a → Q a) : Gives N m Q := by
  intro pre rest hu hn v s' he
  obtain ⟨h, r⟩ := h1 pre rest hu hn v s' he
  exact ⟨h2 v h, r⟩

/-- a word of the text -/
def AWord (N : Prop) (w : List UInt8) : Prop := w ≠ [] ∧ (∀ c ∈ w, ¬ Blank c) ∧ (N → w.length ≤ 510 ∧ ∀ c ∈ w, c ≠ 92)

theorem words_head_inv {rest w : List UInt8} (h : (words rest).head? = some w) :
    w ≠ [] ∧ (∀ c ∈ w, ¬ Blank c) ∧ w.length ≤ rest.length ∧ ∀ c ∈ w, c ∈ rest := by
  obtain ⟨b, r, rfl, hb, hr⟩ := blanks_ahead rest
  obtain ⟨t, r, rfl, ht, hr2⟩ := word_ahead r
  rw [words_blanks hb] at h
  by_cases hne : t = []
  · subst hne
    cases r with
    | nil => rw [List.nil_append, words_nil] at h; simp at h
    | cons x r => exact absurd (hr2 x rfl) (hr x rfl)
  · rw [words_word hne ht hr2] at h
    simp at h; subst h
    exact ⟨hne, ht, by simp; omega, fun c hc => by simp [hc]⟩

theorem read_str : Gives N StrBuf.read_str (fun o => ∀ w, o = some w → AWord N w) := by
  intro pre rest hu hn v s' he
  obtain ⟨mid, rest', h1, h2, h3, h4⟩ := read_str_spec (pre := pre) hu
  rw [h3] at he
  cases he
  refine ⟨fun w hw => ?_, _, rest', rfl, h2, mid, h1⟩
  obtain ⟨k1, k2, k3, k4⟩ := words_head_inv hw
  exact ⟨k1, k2, fun h => ⟨Nat.le_trans k3 (hn h).1, fun c hc => (hn h).2 c (k4 c hc)⟩⟩

theorem read_left : Gives N StrBuf.read_left (fun _ => True) := by
  intro pre rest hu hn v s' he
  rw [read_left_spec hu] at he
  cases he
  exact ⟨trivial, _, [], rfl, rfl, rest, by simp⟩

theorem read_char_string : Gives N StrBuf.read_char_string (fun d => d ≠ [] ∧ d.length ≤ 255) := by
  intro pre rest hu hn v s' he
  obtain ⟨res, pre', rest', h1, h2, h3, h4⟩ := read_char_string_spec pre rest
  rw [h1] at he
  cases he
  obtain ⟨s, ⟨_, _, s1, s2⟩, rfl, s3, s4⟩ := h4 v rfl
  rw [s4] at hu
  exact ⟨⟨s1, s2⟩, pre', rest', rfl, utf8_after hu, s.text, s4⟩

theorem read_text : Gives N StrBuf.read_text (fun ds => ds ≠ [] ∧ ∀ d ∈ ds, d ≠ [] ∧ d.length ≤ 255) := by
  intro pre rest hu hn v s' he
  obtain ⟨res, pre', rest', h1, h2, h3, h4⟩ := read_text_spec pre rest
  rw [h1] at he
  cases he
  obtain ⟨ss, s1, s2, rfl, s4, rfl⟩ := h4 v rfl
  refine ⟨⟨by simpa using s1, fun d hd => ?_⟩, pre', [], rfl, rfl, rest, by simp⟩
  obtain ⟨s, hs, rfl⟩ := List.mem_map.1 hd
  obtain ⟨_, _, k1, k2⟩ := s2 s hs
  exact ⟨k1, k2⟩

theorem read {P : α → Prop} {parse : List UInt8 → Res α} (h : ∀ w v, AWord N w → parse w = .ok v → P v) : Gives N (StrBuf.read parse) P := by
  refine bind read_str (fun o ho => ?_)
  cases o with
  | none => exact fail
  | some w => exact lift (fun v hv => h w v (ho w rfl) hv)

theorem nextWord : Gives N RRset.nextWord (AWord N) := by
  refine bind read_str (fun o ho => ?_)
  cases o with
  | none => exact fail
  | some w => exact pure (ho w rfl)

end Gives

/-- a name as the parser makes them: valid but for its length, which can be 256; valid if the text has no backslash -/
def NameParsed (N : Prop) (n : Name) : Prop :=
  ∃ ls, n = Name.ofLabels ls ∧ n.raw = nameWire ls ∧ (∀ l ∈ ls, 1 ≤ l.length ∧ l.length ≤ 63) ∧ (N → n.raw.length ≤ 255)

/-- the values each field parser makes -/
def FieldParsed (N : Prop) : Disp → FieldVal → Prop
  | .name, .name n => NameParsed N n
  | .ipv4, .ip o => o.length = 4
  | .ipv6, .ip o => o.length = 16
  | .u8, .u8 _ => True
  | .u16, .u16 _ => True
  | .u32, .u32 _ => True
  | .rrtype, .rrtype t => RRType.new t.as_u16 = t
  | .text, .text ds => ds ≠ [] ∧ ∀ d ∈ ds, d ≠ [] ∧ d.length ≤ 255
  | .timestamp, .u32 _ => True
  | .string, .bytes d => d ≠ [] ∧ d.length ≤ 255
  | .binary, .bytes d => d ≠ [] ∧ (N → d.length ≤ 255)
  | .base64, .bytes _ => True
  | _, _ => False

theorem nameParsed {N : Prop} {w : List UInt8} {n : Name} (hw : N → ∀ c ∈ w, c ≠ 92) (h : Name.new w = .ok n) : NameParsed N n := by
  obtain ⟨ls, h1, h2, -, h3, -, h4⟩ := (Name.c04_new_limits_partial w).2 n h
  refine ⟨ls, h1, h2, h3, fun hN => (h4 fun u hu => ?_).1⟩
  exact hw hN 92 (by rw [hu]; simp) rfl

theorem type_canonical {w : List UInt8} {t : RRType} (h : RRType.from_str w = .ok t) : RRType.new t.as_u16 = t := by
  have hn := (from_str_type_inv w t h).1
  cases t <;> first | rfl | exact absurd rfl (hn _)

theorem class_canonical {w : List UInt8} {t : RRClass} (h : RRClass.from_str w = .ok t) : RRClass.new t.to_u16 = t := by
  have hn := (from_str_class_inv w t h).1
  cases t <;> first | rfl | exact absurd rfl (hn _)

theorem spells_length {s b : List UInt8} (h : HexSpec.Spells s b) : 2 * b.length ≤ s.length := by
  induction h with
  | nil => simp
  | white _ _ ih => simp; omega
  | byte _ _ _ _ ih => simp; omega

theorem spells_ne {s b : List UInt8} (h : HexSpec.Spells s b) (hne : s ≠ []) (hb : ∀ c ∈ s, ¬ Blank c) : b ≠ [] := by
  cases h with
  | nil => exact absurd rfl hne
  | @white c t b hw _ =>
    have hc := hb c (by simp)
    exact absurd (by rcases hw with h | h | h | h <;> subst h <;> decide) hc
  | byte _ _ _ _ => simp

theorem ofOption_ok {α : Type} {o : Option α} {a : α} (h : Res.ofOption o = .ok a) : o = some a := by
  cases o <;> simp [Res.ofOption] at h; rw [h]

theorem hexParsed {N : Prop} {w d : List UInt8} (hw : Gives.AWord N w) (h : Res.ofOption (Hex.from_hex w) = .ok d) :
    d ≠ [] ∧ (N → d.length ≤ 255) := by
  have hs := (Hex.c23_from_hex w d).1 (ofOption_ok h)
  have := spells_length hs
  exact ⟨spells_ne hs hw.1 hw.2.1, fun hN => by have := (hw.2.2 hN).1; omega⟩

namespace Gives
variable {N : Prop}

theorem field {x : Ext} (hx : x.Sized) (k : Disp) : Gives N (Field.from_str x k) (FieldParsed N k) := by
  cases k with
  | name => exact bind (read (P := NameParsed N) fun w v hw h => nameParsed (fun hN => (hw.2.2 hN).2) h) (fun a ha => pure ha)
  | ipv4 => exact bind (read (P := fun o : List UInt8 => o.length = 4) fun w v hw h => hx.1 w v (ofOption_ok h)) (fun a ha => pure ha)
  | ipv6 => exact bind (read (P := fun o : List UInt8 => o.length = 16) fun w v hw h => hx.2 w v (ofOption_ok h)) (fun a ha => pure ha)
  | u8 => exact bind (read (P := fun _ => True) fun w v hw h => trivial) (fun a ha => pure trivial)
  | u16 => exact bind (read (P := fun _ => True) fun w v hw h => trivial) (fun a ha => pure trivial)
  | u32 => exact bind (read (P := fun _ => True) fun w v hw h => trivial) (fun a ha => pure trivial)
  | rrtype => exact bind (read (P := fun t => RRType.new t.as_u16 = t) fun w v hw h => type_canonical h) (fun a ha => pure ha)
  | text => exact bind read_text (fun a ha => pure ha)
  | string => exact bind read_char_string (fun a ha => pure ha)
  | binary => exact bind (read (P := fun d => d ≠ [] ∧ (N → d.length ≤ 255)) fun w v hw h => hexParsed hw h) (fun a ha => pure ha)
  | base64 =>
    refine bind read_left (fun o _ => ?_)
    cases o with
    | none => exact fail
    | some s => exact bind (lift (P := fun _ => True) fun _ _ => trivial) (fun a _ => pure trivial)
  | timestamp => exact bind (read (P := fun _ => True) fun w v hw h => trivial) (fun a ha => pure trivial)

/-- the fields in order -/
def FieldsParsed (N : Prop) : List (Codec × Disp) → List FieldVal → Prop
  | [], [] => True
  | c :: cs, v :: vs => FieldParsed N c.2 v ∧ FieldsParsed N cs vs
  | _, _ => False

theorem allFields {x : Ext} (hx : x.Sized) : ∀ (cs : List (Codec × Disp)), Gives N (Field.allFromStr x cs) (FieldsParsed N cs) := by
  intro cs
  induction cs with
  | nil => exact pure trivial
  | cons c cs ih => exact bind (field hx c.2) (fun v hv => bind ih (fun vs hvs => pure ⟨hv, hvs⟩))

/-- data as the parser makes it -/
def DataParsed (N : Prop) (t : RRType) (rd : RData) : Prop := rd.kind = t ∧ ∃ cs, schema t = some cs ∧ FieldsParsed N cs rd.fields

theorem rdata {x : Ext} (hx : x.Sized) (t : RRType) : Gives N (RData.from_string_buffer x t) (DataParsed N t) := by
  unfold RData.from_string_buffer
  cases hs : schema t with
  | none => exact fail
  | some cs => exact bind (allFields hx cs) (fun vs hvs => pure ⟨rfl, cs, hs, hvs⟩)

theorem classType : Gives N RRset.classType (fun ct => RRClass.new ct.1.to_u16 = ct.1 ∧ RRType.new ct.2.as_u16 = ct.2) := by
  refine bind nextWord (fun w _ => ?_)
  cases hc : RRClass.from_str w with
  | ok c =>
    exact bind nextWord (fun w _ => bind (lift (P := fun t => RRType.new t.as_u16 = t) fun t ht => type_canonical ht)
      (fun t ht => pure ⟨class_canonical hc, ht⟩))
  | err => exact bind (lift (P := fun t => RRType.new t.as_u16 = t) fun t ht => type_canonical ht) (fun t ht => pure ⟨rfl, ht⟩)
  | panic => exact bind (lift (P := fun t => RRType.new t.as_u16 = t) fun t ht => type_canonical ht) (fun t ht => pure ⟨rfl, ht⟩)

/-- a set as the parser makes it -/
def SetParsed (N : Prop) (r : RRset) : Prop :=
  NameParsed N r.name ∧ RRClass.new r.class_.to_u16 = r.class_ ∧ RRType.new r.typ.as_u16 = r.typ ∧ r.rdatas ≠ [] ∧
    ∀ rd ∈ r.rdatas, DataParsed N r.typ rd

theorem parse {x : Ext} (hx : x.Sized) : Gives N (RRset.parse x) (SetParsed N) := by
  refine bind nextWord (fun w hw => ?_)
  refine bind (lift (P := NameParsed N) fun n hn => nameParsed (fun hN => (hw.2.2 hN).2) hn) (fun n hn => ?_)
  refine bind nextWord (fun w _ => ?_)
  refine bind (lift (P := fun _ => True) fun _ _ => trivial) (fun ttl _ => ?_)
  refine bind classType (fun ct hct => ?_)
  exact bind (rdata hx ct.2) (fun rd hrd => pure ⟨hn, hct.1, hct.2, by simp, by simpa using hrd⟩)

end Gives

theorem trim_length (s : List UInt8) : (trim s).length ≤ s.length := by
  unfold trim
  simp only
  rw [List.length_reverse]
  refine dropSpaces_keeps (P := fun t => t.length ≤ s.length) (fun t ht => by rw [List.length_drop]; omega) _ _ ?_
  rw [List.length_reverse]
  exact dropSpaces_keeps (P := fun t => t.length ≤ s.length) (fun t ht => by rw [List.length_drop]; omega) _ _ (Nat.le_refl _)

theorem line_parsed {N : Prop} {x : Ext} (hx : x.Sized) {m : Build} {s : List UInt8} (hu : isUtf8 s = true) (hN : N → PlainLine s) {r : RRset}
    (h : RRset.from_str x m s = .ok r) : Gives.SetParsed N r := by
  unfold RRset.from_str at h
  obtain ⟨b, hb, h⟩ := Res.bind_eq_ok.1 h
  obtain rfl : b = cur [] (trim s) := by
    unfold StrBuf.new at hb
    split at hb
    · obtain ⟨_, _, hb⟩ := Res.bind_eq_ok.1 hb
      simpa [cur] using hb.symm
    · simpa [cur] using hb.symm
  exact (Gives.parse hx [] (trim s) (trim_utf8 hu) (fun h => ⟨Nat.le_trans (trim_length s) (hN h).2.1, trim_all (hN h).2.2⟩) r _
    (Prod.ext h rfl)).1

end R53
