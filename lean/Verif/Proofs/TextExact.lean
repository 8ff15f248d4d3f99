import Verif.Props.RoundTrip
import Verif.Props.Grammar
import Verif.Props.Tell
/-!
# Which records are read back from their text

A field that is read back is printable; what is left behind it is the text of the fields that follow.
-/
namespace R53
open StrBuf

/-- no white space character at the end -/
def NoEnd (s : List UInt8) : Prop := ∀ c ∈ spaceChars, ¬ c <:+ s

theorem NoEnd.suffix {s t : List UInt8} (h : NoEnd s) (ht : t <:+ s) : NoEnd t := fun c hc hct => h c hc (hct.trans ht)

theorem cur_inj {p q r s : List UInt8} (h : cur p r = cur q s) : r = s := by
  have h1 := congrArg StrBuf.raw h
  have h2 := congrArg StrBuf.pos h
  exact (List.append_inj h1 h2).2

theorem takes_unique {α : Type} {m : St StrBuf α} {R : List UInt8 → α → List UInt8 → Prop} (h : Takes m R) {s : List UInt8} (hs : isUtf8 s = true)
    {v w : α} {r q : List UInt8} (h1 : R s v r) (h2 : R s w q) : v = w ∧ r = q := by
  obtain ⟨-, p1, e1⟩ := (h [] s hs).2 v r h1
  obtain ⟨-, p2, e2⟩ := (h [] s hs).2 w q h2
  rw [e1] at e2
  injection e2 with a b
  exact ⟨Res.ok.inj a, cur_inj b⟩

theorem firstWord_unique {s v w r q : List UInt8} (hs : isUtf8 s = true) (h1 : FirstWord s v r) (h2 : FirstWord s w q) : v = w ∧ r = q :=
  takes_unique takes_nextWord hs h1 h2

theorem firstWord_more {s w r z : List UInt8} (h : FirstWord s w r) (hz : ∀ b ∈ z, Blank b) : FirstWord (s ++ z) w (r ++ z) := by
  obtain ⟨b, rfl, h1, h2, h3, h4⟩ := h
  refine ⟨b, by simp, h1, h2, h3, ?_⟩
  intro c hc
  cases r with
  | nil =>
    cases z with
    | nil => cases hc
    | cons x z => simp at hc; exact hz c (by simp [hc])
  | cons x r => exact h4 c (by simpa using hc)

theorem firstWord_of {u t more : List UInt8} (hu : ∀ b ∈ u, Blank b) (ht : Word t) (hm : ∀ c, more.head? = some c → Blank c) :
    FirstWord (u ++ (t ++ more)) t more := ⟨u, by simp, hu, ht.1, ht.notBlank, hm⟩

theorem charThen_more {s d r z : List UInt8} (h : CharStringThen s d r) : CharStringThen (s ++ z) d (r ++ z) := by
  obtain ⟨b, body, rfl, h1⟩ := h
  exact ⟨b, body, by simp, h1⟩

theorem fieldText_nil (k : Disp) (v : FieldVal) (r : List UInt8) : ¬ FieldText k [] v r := by
  have nf : ∀ w r, ¬ FirstWord [] w r := by
    rintro w r ⟨b, h, -, h3, -⟩
    have := congrArg List.length h
    simp at this
    exact h3 (List.length_eq_zero_iff.1 (by omega))
  have nc : ∀ d r, ¬ CharStringThen [] d r := by
    rintro d r ⟨b, y, h, -⟩
    have := congrArg List.length h
    simp at this
  intro h
  cases k <;> cases v <;> first
    | exact h.elim
    | exact nf _ _ h.1
    | (obtain ⟨w, h, -⟩ := h; exact nf _ _ h)
    | (obtain ⟨w, vs, h, -⟩ := h; exact nf _ _ h)
    | exact nc _ _ h
    | exact h.1 rfl
    | (obtain ⟨h, -⟩ := h; cases h with
        | one h => exact nc _ _ h
        | more h _ => exact nc _ _ h)

theorem charStrings_data {s : List UInt8} {ds : List (List UInt8)} (h : CharStrings s ds) : ds ≠ [] ∧ ∀ d ∈ ds, d ≠ [] ∧ d.length ≤ 255 := by
  have one : ∀ {s d r}, CharStringThen s d r → d ≠ [] ∧ d.length ≤ 255 := by
    rintro s d r ⟨_, _, -, -, -, h1, h2⟩
    exact ⟨by rintro rfl; simp at h1, h2⟩
  induction h with
  | one h => exact ⟨by simp, by simpa using one h⟩
  | more h _ ih => exact ⟨by simp, by intro d hd; rcases List.mem_cons.1 hd with rfl | hd; exact one h; exact ih.2 d hd⟩

theorem spaced_nil {s : List UInt8} (h : Spaced s []) (hs : s ≠ []) : ∃ u ∈ spaceChars, u <:+ s := by
  generalize ht : ([] : List UInt8) = t at h
  induction h with
  | nil => exact absurd rfl hs
  | @space u s t hu h ih =>
    subst ht
    by_cases h0 : s = []
    · subst h0; exact ⟨u, hu, by simp⟩
    · obtain ⟨w, hw, hs⟩ := ih h0 rfl
      exact ⟨w, hw, hs.trans (List.suffix_append _ _)⟩
  | char => cases ht

theorem type_own {t : RRType} (h : TypeText t.to_str t) : (∀ v, t ≠ .Unknown v) ∧ t ≠ .CERT := by
  rw [← type_iff] at h
  refine ⟨?_, ?_⟩
  · rintro v rfl
    have : RRType.from_str (RRType.to_str (.Unknown v)) = .err := by
      show RRType.from_str (RRType.to_str (.Unknown 0)) = .err
      decide +kernel
    rw [this] at h; cases h
  · rintro rfl
    have : RRType.from_str (RRType.to_str .CERT) = .ok .URI := by decide +kernel
    rw [this] at h; cases h

theorem name_text {n : Name} {t : List UInt8} (hw : n.WF) (h : n.to_string = .ok t) : Word t := by
  obtain ⟨ls, hv, rfl⟩ := hw
  obtain ⟨t', h1, h2⟩ := c05_prints hv
  obtain rfl := Res.ok.inj (h.symm.trans h1)
  refine ⟨?_, h2⟩
  rintro rfl
  have e := (c05_text ls hv).1
  rw [h] at e
  have k := (c05_text ls hv).2.1
  rw [← Res.ok.inj e] at k
  simp [rfcLabels] at k

theorem name_own {n : Name} {t : List UInt8} (hw : n.WF) (h : n.to_string = .ok t) (ht : NameText t n) : PlainName n := by
  obtain ⟨ls, hv, rfl⟩ := hw
  exact ⟨ls, hv, rfl, (c05_exact ls hv).1 ⟨t, h, (nameText_iff t _).2 ht⟩⟩

theorem spells_nil {w : List UInt8} (h : HexSpec.Spells w []) (hw : ∀ c ∈ w, ¬ Blank c) : w = [] := by
  generalize hd : ([] : List UInt8) = d at h
  induction h with
  | nil => rfl
  | white hc _ _ =>
    refine absurd ?_ (hw _ (List.mem_cons_self ..))
    rcases hc with h | h | h | h <;> simp [Blank, h]
  | byte => cases hd

/-- a field that is read back from its text is printable, and the text behind it is left -/
theorem field_exact {k : Disp} {v : FieldVal} (hn : ∀ n, v = .name n → n.WF) {t s mid u z more : List UInt8}
    (ht : Field.to_str stdExt k v = .ok t) (h : FieldText k s v mid) (e : s ++ z = u ++ (t ++ more)) (hu : ∀ b ∈ u, Blank b)
    (hz : ∀ b ∈ z, Blank b) (hm : ∀ c, more.head? = some c → Blank c) (hs : isUtf8 (s ++ z) = true) (hend : NoEnd s) :
    v.Printable k ∧ (mid = [] ∨ mid ++ z = more) := by
  have word : ∀ {w}, Word t → FirstWord s w mid → w = t ∧ mid ++ z = more := by
    intro w hw hf
    have h1 := firstWord_more hf hz
    have h2 := firstWord_of hu hw hm
    rw [← e] at h2
    exact firstWord_unique hs h1 h2
  match k, v, h with
  | .name, .name n, h =>
    obtain ⟨w, h1, h2⟩ := h
    obtain ⟨rfl, h3⟩ := word (name_text (hn n rfl) ht) h1
    exact ⟨name_own (hn n rfl) ht h2, .inr h3⟩
  | .ipv4, .ip o, h =>
    obtain ⟨h1, h2⟩ := h
    cases ht
    exact ⟨h2, .inr (word (stdExt_laws.v4 _ h2).1 h1).2⟩
  | .ipv6, .ip o, h =>
    obtain ⟨w, vs, h1, h2⟩ := h
    have hl := stdExt_sized.2 w o ((v6Text_iff w o).2 ⟨vs, h2⟩)
    cases ht
    exact ⟨hl, .inr (word (stdExt_laws.v6 _ hl).1 h1).2⟩
  | .u8, .u8 v, h => obtain ⟨w, h1, -⟩ := h; cases ht; exact ⟨trivial, .inr (word (decimal_word _) h1).2⟩
  | .u16, .u16 v, h => obtain ⟨w, h1, -⟩ := h; cases ht; exact ⟨trivial, .inr (word (decimal_word _) h1).2⟩
  | .u32, .u32 v, h => obtain ⟨w, h1, -⟩ := h; cases ht; exact ⟨trivial, .inr (word (decimal_word _) h1).2⟩
  | .rrtype, .rrtype c, h =>
    obtain ⟨w, h1, h2⟩ := h
    cases ht
    obtain ⟨rfl, h3⟩ := word (type_word _) h1
    exact ⟨type_own h2, .inr h3⟩
  | .text, .text ds, h => exact ⟨charStrings_data h.1, .inl h.2⟩
  | .timestamp, .u32 v, h =>
    obtain ⟨w, h1, -⟩ := h
    cases ht
    exact ⟨trivial, .inr (word ⟨by simp [Cal.format, Cal.two], stamp_dark _⟩ h1).2⟩
  | .string, .bytes d, h =>
    obtain ⟨_, _, -, -, -, h1, h2⟩ := id h
    have hd : d ≠ [] := by rintro rfl; simp at h1
    refine ⟨⟨hd, h2⟩, .inr ?_⟩
    cases ht
    obtain ⟨t', k1, -, k3⟩ := Field.field_round stdExt_laws .string (.bytes d) ⟨hd, h2⟩
    cases k1
    have k4 := k3 [] u more hu hm (by simp [Field.takesAll])
    rw [← e] at k4
    obtain ⟨p1, r1, a1, -, a2⟩ := (takes_field .string [] (s ++ z) hs).1 _ _ k4
    obtain rfl := cur_inj a1
    exact (takes_unique takes_char hs (charThen_more h) a2).2
  | .binary, .bytes d, h =>
    obtain ⟨w, h1, h2⟩ := h
    have hd : d ≠ [] := by
      rintro rfl
      obtain ⟨_, -, -, h3, h4, -⟩ := h1
      exact h3 (spells_nil h2 h4)
    exact ⟨hd, .inr (word (hex_word hd ht) h1).2⟩
  | .base64, .bytes d, h =>
    obtain ⟨h1, h2, t', k, h3, h4⟩ := h
    refine ⟨?_, .inl h2⟩
    rintro rfl
    have : t' = [] := by
      have := congrArg List.length h4
      simp [base64Text] at this
      exact this.1
    subst this
    obtain ⟨c, hc, hs⟩ := spaced_nil h3 h1
    exact hend c hc hs

/-- data read back from its text is printable -/
theorem fields_exact : ∀ {cs : List (Codec × Disp)} {vs : List FieldVal} {T s rest u z : List UInt8}, (∀ n, .name n ∈ vs → n.WF) →
    Field.allToStr stdExt cs vs = .ok T → FieldsText (cs.map Prod.snd) s vs rest → s ++ z = u ++ T → (∀ b ∈ u, Blank b) → (∀ b ∈ z, Blank b) →
    (∀ c ∈ s ++ z, c.toNat < 0x80) → NoEnd s → FieldsPrintable cs vs
  | [], vs, _, _, _, _, _, _, _, h, _, _, _, _, _ => by obtain ⟨rfl, -⟩ := h; trivial
  | c :: cs, [], _, _, _, _, _, _, _, h, _, _, _, _, _ => h.elim
  | c :: cs, v :: vs, T, s, rest, u, z, hn, ht, h, e, hu, hz, hs, hend => by
    obtain ⟨mid, h1, h2⟩ := h
    unfold Field.allToStr at ht
    obtain ⟨t, h3, ht2⟩ := Res.bind_eq_ok.1 ht
    clear ht
    by_cases h0 : cs = []
    · rw [if_pos h0] at ht2
      subst h0
      obtain rfl : t = T := Res.ok.inj ht2
      obtain ⟨k1, -⟩ := field_exact (fun n hh => hn n (by simp [hh])) h3 h1 (more := []) (by simpa using e) hu hz (by simp) (isUtf8_ascii hs) hend
      refine ⟨k1, ?_⟩
      obtain ⟨rfl, -⟩ := h2
      trivial
    · rw [if_neg h0] at ht2
      obtain ⟨r, h4, ht3⟩ := Res.bind_eq_ok.1 ht2
      obtain rfl : t ++ [32] ++ r = T := Res.ok.inj ht3
      obtain ⟨k1, k2⟩ := field_exact (fun n hh => hn n (by simp [hh])) h3 h1 (more := 32 :: r) (by rw [e]; simp) hu hz
        (by simp [Blank]) (isUtf8_ascii hs) hend
      refine ⟨k1, ?_⟩
      rcases k2 with rfl | k2
      · cases cs with
        | nil => exact absurd rfl h0
        | cons c2 cs =>
          cases vs with
          | nil => exact h2.elim
          | cons v2 vs => obtain ⟨m2, h5, -⟩ := h2; exact absurd h5 (fieldText_nil _ _ _)
      · have es : s = (u ++ t) ++ mid := by
          have : s ++ z = ((u ++ t) ++ mid) ++ z := by rw [e, List.append_assoc (u ++ t), k2]; simp
          exact List.append_cancel_right this
        refine fields_exact (u := [32]) (fun n hh => hn n (by simp [hh])) h4 h2 k2 (by simp [Blank]) hz ?_ (hend.suffix ⟨_, es.symm⟩)
        intro x hx
        exact hs x (by rw [es, List.append_assoc]; exact List.mem_append_right _ hx)

/-- trimming a line of visible characters, blanks and tabs that starts with a word -/
theorem trimmed_line {l t : List UInt8} (h : Trimmed l t) (hl : ∀ c ∈ l, c = 9 ∨ (32 ≤ c ∧ c < 127)) (hh : ∀ c, l.head? = some c → ¬ Blank c) :
    ∃ z, l = t ++ z ∧ (∀ b ∈ z, Blank b) ∧ NoEnd t := by
  obtain ⟨us, ws, e, h1, h2, -, h4⟩ := h
  have key : ∀ w ∈ spaceChars, (∀ c ∈ w, c = 9 ∨ (32 ≤ c ∧ c < 127)) → ∀ c ∈ w, Blank c := by decide +kernel
  have ne : ∀ w ∈ spaceChars, w ≠ [] := by decide
  have hus : us = [] := by
    cases us with
    | nil => rfl
    | cons u us =>
      have hu := h1 u (by simp)
      have hb := key u hu fun c hc => hl c (by rw [e]; simp [hc])
      cases u with
      | nil => exact absurd rfl (ne _ hu)
      | cons x u => exact absurd (hb x (by simp)) (hh x (by rw [e]; simp))
  subst hus
  refine ⟨ws.flatten, by simpa using e, ?_, h4⟩
  intro b hb
  obtain ⟨w, hw, hbw⟩ := List.mem_flatten.1 hb
  exact key w (h2 w hw) (fun c hc => hl c (by rw [e]; exact List.mem_append_right _ (List.mem_flatten.2 ⟨w, hw, hc⟩))) b hbw

theorem typed_names {cs : List (Codec × Disp)} {vs : List FieldVal} (h : FieldsTyped cs vs) : ∀ n, .name n ∈ vs → n.WF := by
  induction cs generalizing vs with
  | nil => cases vs <;> simp [FieldsTyped] at h; simp
  | cons c cs ih =>
    cases vs with
    | nil => simp
    | cons v vs =>
      intro n hn
      rcases List.mem_cons.1 hn with rfl | hn
      · obtain ⟨c, d⟩ := c
        cases c <;> first | exact h.1 | exact h.1.elim
      · exact ih h.2 n hn

theorem class_not_type (c : RRClass) (t : RRType) (h : TypeText c.to_str t) : t = .ANY := by
  rw [← type_iff] at h
  have no : ∀ {w : List UInt8}, RRType.from_str w = .err → RRType.from_str w ≠ .ok t := by intro w h1 h2; rw [h1] at h2; cases h2
  cases c with
  | IN => exact absurd h (no (by decide +kernel))
  | CH => exact absurd h (no (by decide +kernel))
  | HS => exact absurd h (no (by decide +kernel))
  | NONE => exact absurd h (no (by decide +kernel))
  | ANY => rw [show RRType.from_str (RRClass.to_str .ANY) = .ok .ANY by decide +kernel] at h; cases h; rfl
  | Unknown v => exact absurd h (no (show RRType.from_str (RRClass.to_str (.Unknown 0)) = .err by decide +kernel))

theorem class_own {c d : RRClass} (h : ClassText c.to_str d) : ∀ v, c ≠ .Unknown v := by
  rw [← class_iff] at h
  rintro v rfl
  rw [show RRClass.from_str (RRClass.to_str (.Unknown v)) = .err from
    (show RRClass.from_str (RRClass.to_str (.Unknown 0)) = .err by decide +kernel)] at h
  cases h

/-- what a line of a set denotes, if it denotes a record with the data it was printed from -/
theorem line_exact {r p : RRset} {rd : RData} {l t : List UInt8} (hn : r.name.WF) (hrd : rd.Typed) (hl : r.line stdExt rd = .ok (l ++ [10]))
    (ht : Trimmed l t) (hp : SetText t p) (hd : p.rdatas = [rd]) :
    (p.name = r.name → PlainName r.name) ∧ (∀ v, r.class_ ≠ .Unknown v) ∧ (p.typ = r.typ → r.typ ≠ .CERT) ∧ rd.Printable ∧ rd.kind = p.typ := by
  unfold RRset.line RRset.header at hl
  obtain ⟨hd1, hl1, hl2⟩ := Res.bind_eq_ok.1 hl
  obtain ⟨nt, hnt, hl3⟩ := Res.bind_eq_ok.1 hl1
  obtain rfl := Res.ok.inj hl3
  obtain ⟨dt, hdt, hl4⟩ := Res.bind_eq_ok.1 hl2
  have el : l = nt ++ (9 :: (decimal r.ttl.toNat ++ (9 :: (r.class_.to_str ++ (9 :: (r.typ.to_str ++ (9 :: dt))))))) := by
    have := List.append_cancel_right (Res.ok.inj hl4)
    rw [← this]; simp
  clear hl hl1 hl2 hl3 hl4
  have wn := name_text hn hnt
  obtain ⟨cs, hcs, hty⟩ := hrd
  have hdt' : Field.allToStr stdExt cs rd.fields = .ok dt := by
    unfold RData.to_str at hdt; rw [hcs] at hdt; exact hdt
  have odt := fields_octets stdExt_laws rfl (schema_pairs hcs) hty hdt'
  have vis : ∀ {w : List UInt8}, Word w → ∀ c ∈ w, c = 9 ∨ (32 ≤ c ∧ c < 127) := by
    intro w hw c hc
    have key : ∀ c : UInt8, 33 ≤ c ∧ c < 127 → 32 ≤ c ∧ c < 127 := by apply forall_u8'; decide +kernel
    exact .inr (key c (hw.2 c hc))
  have ol : ∀ c ∈ l, c = 9 ∨ (32 ≤ c ∧ c < 127) := by
    rw [el]
    intro c hc
    simp only [List.mem_append, List.mem_cons] at hc
    rcases hc with h | h | h | h | h | h | h | h | h
    · exact vis wn c h
    · exact .inl h
    · exact vis (decimal_word _) c h
    · exact .inl h
    · exact vis (class_word _) c h
    · exact .inl h
    · exact vis (type_word _) c h
    · exact .inl h
    · exact .inr (odt c h)
  have asc : ∀ c ∈ l, c.toNat < 0x80 := by
    have key : ∀ c : UInt8, (c = 9 ∨ (32 ≤ c ∧ c < 127)) → c.toNat < 0x80 := by apply forall_u8'; decide +kernel
    exact fun c hc => key c (ol c hc)
  have hh : ∀ c, l.head? = some c → ¬ Blank c := by
    intro c hc
    cases nt with
    | nil => exact absurd rfl wn.1
    | cons x nt =>
      rw [el] at hc
      simp at hc
      subst hc
      exact wn.notBlank x (by simp)
  obtain ⟨z, e, hz, hend⟩ := trimmed_line ht ol hh
  have step : ∀ {s w m u x more : List UInt8}, Word x → FirstWord s w m → s ++ z = u ++ (x ++ more) → (∀ b ∈ u, Blank b) →
      (∀ c, more.head? = some c → Blank c) → (∀ c ∈ s ++ z, c.toNat < 0x80) → w = x ∧ m ++ z = more := by
    intro s w m u x more hx hf e hu hm ha
    have h2 := firstWord_of hu hx hm
    rw [← e] at h2
    exact firstWord_unique (isUtf8_ascii ha) (firstWord_more hf hz) h2
  have tab : ∀ (t : List UInt8) (c : UInt8), (9 :: t).head? = some c → Blank c := by intro t c h; cases h; simp [Blank]
  have tab1 : ∀ b ∈ ([9] : List UInt8), Blank b := by simp [Blank]
  obtain ⟨wn', s1, wt, s2, s3, rd', f1, k1, f2, k2, k3, k4, k5, k6⟩ := hp
  obtain rfl : rd' = rd := by rw [k6] at hd; exact (List.cons.inj hd).1
  rw [e] at el asc
  obtain ⟨rfl, e1⟩ := step (u := []) wn f1 el (by simp) (tab _) asc
  have a1 : ∀ c ∈ s1 ++ z, c.toNat < 0x80 := fun c hc => asc c (by rw [el, ← e1]; exact List.mem_append_right _ hc)
  obtain ⟨-, e2⟩ := step (u := [9]) (decimal_word _) f2 e1 tab1 (tab _) a1
  have a2 : ∀ c ∈ s2 ++ z, c.toNat < 0x80 := fun c hc => a1 c (by
    rw [e1, ← e2]; exact List.mem_cons_of_mem _ (List.mem_append_right _ hc))
  obtain ⟨rest, ks, q1, q2⟩ := k5
  rcases k3 with ⟨wc, s2', wy, g1, g2, g3, g4⟩ | ⟨wy, g1, g2, -⟩
  · obtain ⟨rfl, e3⟩ := step (u := [9]) (class_word _) g1 e2 tab1 (tab _) a2
    have a3 : ∀ c ∈ s2' ++ z, c.toNat < 0x80 := fun c hc => a2 c (by
      rw [e2, ← e3]; exact List.mem_cons_of_mem _ (List.mem_append_right _ hc))
    obtain ⟨rfl, e4⟩ := step (u := [9]) (type_word _) g3 e3 tab1 (tab _) a3
    have a4 : ∀ c ∈ s3 ++ z, c.toNat < 0x80 := fun c hc => a3 c (by
      rw [e3, ← e4]; exact List.mem_cons_of_mem _ (List.mem_append_right _ hc))
    have suf : s3 <:+ t := by
      have hz2 : s3 ++ z <:+ t ++ z := by
        rw [el, e4]
        exact ⟨wn' ++ (9 :: (decimal r.ttl.toNat ++ (9 :: (r.class_.to_str ++ (9 :: r.typ.to_str))))), by simp⟩
      obtain ⟨a, ha⟩ := hz2
      exact ⟨a, List.append_cancel_right (by rw [← ha]; simp)⟩
    refine ⟨fun hh => name_own hn hnt (hh ▸ k1), class_own g2, fun hh => (type_own (hh ▸ g4)).2, ⟨cs, hcs, ?_⟩, k4⟩
    rw [schema_form, hcs] at q1
    cases q1
    exact fields_exact (u := [9]) (typed_names hty) hdt' q2 e4 tab1 hz a4 (hend.suffix suf)
  · obtain ⟨rfl, e3⟩ := step (u := [9]) (class_word _) g1 e2 tab1 (tab _) a2
    have := class_not_type _ _ g2
    rw [k4, this] at q1
    cases q1

theorem line_total {r : RRset} {rd : RData} (hn : r.name.WF) (hrd : rd.Typed) :
    ∃ l, r.line stdExt rd = .ok (l ++ [10]) ∧ ∀ c ∈ l, c = 9 ∨ (32 ≤ c ∧ c < 127) := by
  obtain ⟨nt, hnt⟩ : ∃ nt, r.name.to_string = .ok nt := by
    obtain ⟨ls, hv, e⟩ := hn
    rw [e]
    obtain ⟨t, h, -⟩ := c05_prints hv
    exact ⟨t, h⟩
  have wn := name_text hn hnt
  obtain ⟨cs, hcs, hty⟩ := hrd
  obtain ⟨dt, hdt'⟩ := fields_total stdExt cs rd.fields (schema_pairs hcs) hty
  have hdt : rd.to_str stdExt = .ok dt := by unfold RData.to_str; rw [hcs]; exact hdt'
  have odt := fields_octets stdExt_laws rfl (schema_pairs hcs) hty hdt'
  have vis : ∀ {w : List UInt8}, Word w → ∀ c ∈ w, c = 9 ∨ (32 ≤ c ∧ c < 127) := by
    intro w hw c hc
    have key : ∀ c : UInt8, 33 ≤ c ∧ c < 127 → 32 ≤ c ∧ c < 127 := by apply forall_u8'; decide +kernel
    exact .inr (key c (hw.2 c hc))
  refine ⟨nt ++ (9 :: (decimal r.ttl.toNat ++ (9 :: (r.class_.to_str ++ (9 :: (r.typ.to_str ++ (9 :: dt))))))), ?_, ?_⟩
  · unfold RRset.line RRset.header
    rw [hnt, Res.bind_ok, Res.pure_eq, Res.bind_ok, hdt, Res.bind_ok]
    simp
  · intro c hc
    simp only [List.mem_append, List.mem_cons] at hc
    rcases hc with h | h | h | h | h | h | h | h | h
    · exact vis wn c h
    · exact .inl h
    · exact vis (decimal_word _) c h
    · exact .inl h
    · exact vis (class_word _) c h
    · exact .inl h
    · exact vis (type_word _) c h
    · exact .inl h
    · exact .inr (odt c h)

end R53
