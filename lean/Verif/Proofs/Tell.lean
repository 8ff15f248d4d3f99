import Verif.Props.Show
import Verif.Proofs.Dump
/-!
# Texts tell values apart
-/
namespace R53

/-- nothing, or a blank or line end first -/
def Stops (r : List UInt8) : Prop := r = [] ∨ ∃ c t, r = c :: t ∧ (c = 32 ∨ c = 10)

theorem stop_light {c : UInt8} (h : c = 32 ∨ c = 10) : ¬ Dark c := by rcases h with rfl | rfl <;> unfold Dark <;> decide

theorem stops_cut {a b r s : List UInt8} (ha : ∀ c ∈ a, Dark c) (hb : ∀ c ∈ b, Dark c) (hr : Stops r) (hs : Stops s)
    (e : a ++ r = b ++ s) : a = b ∧ r = s := by
  rcases hr with rfl | ⟨c, r, rfl, hc⟩ <;> rcases hs with rfl | ⟨d, s, rfl, hd⟩
  · simpa using e
  · rw [List.append_nil] at e
    exact absurd (ha d (by rw [e]; simp)) (stop_light hd)
  · rw [List.append_nil] at e
    exact absurd (hb c (by rw [← e]; simp)) (stop_light hc)
  · obtain ⟨h1, h2, h3⟩ := dark_cut ha hb (stop_light hc) (stop_light hd) e
    exact ⟨h1, by rw [h2, h3]⟩

theorem word_dark {t : List UInt8} (h : Word t) : ∀ c ∈ t, Dark c := h.2

/-! ## quoted strings -/

theorem quote_head (a : UInt8) : ∃ c t, Field.char_to_str a = c :: t ∧ c ≠ 34 := by
  revert a; apply forall_u8'
  have : ∀ i : Fin 256, (Field.char_to_str (UInt8.ofNat i)).head? ≠ some 34 ∧ (Field.char_to_str (UInt8.ofNat i)).head? ≠ none := by decide +kernel
  intro i
  obtain ⟨h1, h2⟩ := this i
  generalize Field.char_to_str (UInt8.ofNat i) = t at h1 h2
  cases t with
  | nil => simp at h2
  | cons c t => exact ⟨c, t, rfl, fun h => h1 (by rw [h]; rfl)⟩

/-- the octet that a text of one or two or four octets stands for -/
def unquote : List UInt8 → Option (UInt8 × List UInt8)
  | [] => none
  | c :: t =>
    if c = 92 then match t with
      | [] => none
      | d :: t' => if isAsciiDigit d then match t' with
          | e :: f :: t'' => some ((d - 48) * 100 + (e - 48) * 10 + (f - 48), t'')
          | _ => none
        else some (d, t')
    else some (c, t)

/-- the four octets of a number escape that stands for `a` -/
def quadOf (a : UInt8) : List UInt8 → Bool
  | [b, d, e, f] => b == 92 && isAsciiDigit d && ((d - 48) * 100 + (e - 48) * 10 + (f - 48) == a)
  | _ => false

theorem unquote_char (a : UInt8) (t : List UInt8) : unquote (Field.char_to_str a ++ t) = some (a, t) := by
  have : ∀ a : UInt8, (Field.char_to_str a = [a] ∧ a ≠ 92) ∨ (Field.char_to_str a = [92, a] ∧ isAsciiDigit a = false) ∨
      ∃ d e f, Field.char_to_str a = [92, d, e, f] ∧ isAsciiDigit d = true ∧ (d - 48) * 100 + (e - 48) * 10 + (f - 48) = a := by
    apply forall_u8'
    have : ∀ i : Fin 256, (Field.char_to_str (UInt8.ofNat i) = [UInt8.ofNat i] ∧ (UInt8.ofNat i) ≠ 92) ∨
      (Field.char_to_str (UInt8.ofNat i) = [92, UInt8.ofNat i] ∧ isAsciiDigit (UInt8.ofNat i) = false) ∨
      quadOf (UInt8.ofNat i) (Field.char_to_str (UInt8.ofNat i)) = true := by decide +kernel
    intro i
    rcases this i with h | h | h
    · exact .inl h
    · exact .inr (.inl h)
    · right; right
      generalize Field.char_to_str (UInt8.ofNat i) = t at h
      unfold quadOf at h
      split at h
      · simp only [Bool.and_eq_true, beq_iff_eq] at h
        exact ⟨_, _, _, by rw [h.1.1], h.1.2, h.2⟩
      · cases h
  rcases this a with ⟨h, h'⟩ | ⟨h, h'⟩ | ⟨d, e, f, h, h1, h2⟩
  · rw [h]; simp [unquote, h']
  · rw [h]; simp [unquote, h']
  · rw [h]; simp [unquote, h1, h2]

theorem body_cut : ∀ (d k r s : List UInt8), d.flatMap Field.char_to_str ++ 34 :: r = k.flatMap Field.char_to_str ++ 34 :: s → d = k ∧ r = s
  | [], [], r, s, h => by simpa using h
  | [], b :: k, r, s, h => by
    obtain ⟨c, t, h1, h2⟩ := quote_head b
    rw [List.flatMap_cons, h1] at h
    simp at h; exact absurd h.1.symm h2
  | a :: d, [], r, s, h => by
    obtain ⟨c, t, h1, h2⟩ := quote_head a
    rw [List.flatMap_cons, h1] at h
    simp at h; exact absurd h.1 h2
  | a :: d, b :: k, r, s, h => by
    rw [List.flatMap_cons, List.flatMap_cons, List.append_assoc, List.append_assoc] at h
    have h1 := unquote_char a (d.flatMap Field.char_to_str ++ 34 :: r)
    rw [h, unquote_char b] at h1
    injection h1 with h1
    injection h1 with h1 h2
    obtain ⟨h3, h4⟩ := body_cut d k r s h2.symm
    exact ⟨by rw [h1, h3], h4⟩

theorem string_cut {d k r s : List UInt8} (h : Field.string_to_str d ++ r = Field.string_to_str k ++ s) : d = k ∧ r = s := by
  unfold Field.string_to_str at h
  simp only [List.cons_append, List.append_assoc, List.singleton_append, List.cons.injEq, true_and] at h
  exact body_cut d k r s (by simpa using h)

theorem text_cut : ∀ {d k : List (List UInt8)} {r s : List UInt8}, Stops r → Stops s → Field.text_to_str d ++ r = Field.text_to_str k ++ s → d = k ∧ r = s
  | [], [], r, s, _, _, h => ⟨rfl, by simpa [Field.text_to_str] using h⟩
  | [], b :: k, r, s, hr, _, h => by
    exfalso
    simp only [Field.text_to_str, Field.string_to_str, List.nil_append, List.cons_append, List.append_assoc] at h
    rcases hr with rfl | ⟨c, t, rfl, hc⟩
    · simp at h
    · simp only [List.cons.injEq] at h; rw [h.1] at hc; revert hc; decide
  | a :: d, [], r, s, _, hs, h => by
    exfalso
    simp only [Field.text_to_str, Field.string_to_str, List.nil_append, List.cons_append, List.append_assoc] at h
    rcases hs with rfl | ⟨c, t, rfl, hc⟩
    · simp at h
    · simp only [List.cons.injEq] at h; rw [← h.1] at hc; revert hc; decide
  | a :: d, b :: k, r, s, hr, hs, h => by
    simp only [Field.text_to_str, List.append_assoc] at h
    obtain ⟨h1, h2⟩ := string_cut h
    obtain ⟨h3, h4⟩ := text_cut hr hs h2
    exact ⟨by rw [h1, h3], h4⟩

/-! ## codes -/

/-- types with the same text are the same, as far as it is shown -/
theorem type_blur {a b : RRType} (h : a.to_str = b.to_str) : a.blur = b.blur := by
  have self : ∀ a : RRType, a.to_str = a.blur.to_str := by intro a; cases a <;> first | rfl | decide +kernel
  have un : ∀ t : RRType, t.Named → t.to_str ≠ (RRType.Unknown 0).to_str := by
    intro t ht; cases t <;> first | exact absurd rfl (ht _) | decide +kernel
  have key : ∀ a : RRType, a.blur = .Unknown 0 ∨ (a.blur.Named ∧ a.blur ≠ .CERT) := by
    intro a
    cases a <;> first | exact .inl rfl | exact .inr ⟨(by intro v h; cases h), (by simp [RRType.blur])⟩
  rw [self a, self b] at h
  rcases key a with ha | ⟨ha, ha'⟩ <;> rcases key b with hb | ⟨hb, hb'⟩
  · rw [ha, hb]
  · rw [ha] at h; exact absurd h.symm (un _ hb)
  · rw [hb] at h; exact absurd h (un _ ha)
  · exact c31_type_distinct_partial _ _ ha hb ha' hb' h

/-- and classes -/
theorem class_blur {a b : RRClass} (h : a.to_str = b.to_str) : a.blur = b.blur := by
  have un : ∀ t : RRClass, t.Named → t.to_str ≠ (RRClass.Unknown 0).to_str := by
    intro t ht; cases t <;> first | exact absurd rfl (ht _) | decide +kernel
  have self : ∀ a : RRClass, a.to_str = a.blur.to_str := by intro a; cases a <;> first | rfl | decide +kernel
  have key : ∀ a : RRClass, a.blur = .Unknown 0 ∨ a.blur.Named := by
    intro a
    cases a <;> first | exact .inl rfl | exact .inr (by intro v h; cases h)
  rw [self a, self b] at h
  rcases key a with ha | ha <;> rcases key b with hb | hb
  · rw [ha, hb]
  · rw [ha] at h; exact absurd h.symm (un _ hb)
  · rw [hb] at h; exact absurd h (un _ ha)
  · exact c31_class_distinct _ _ ha hb h

theorem type_shown (a : RRType) : a.blur.to_str = a.to_str := by cases a <;> first | rfl | decide +kernel
theorem class_shown (a : RRClass) : a.blur.to_str = a.to_str := by cases a <;> first | rfl | decide +kernel

theorem field_shown (x : Ext) (d : Disp) (v : FieldVal) : Field.to_str x d v.blur = Field.to_str x d v := by
  cases v <;> first | rfl | (cases d <;> first | rfl | (simp only [FieldVal.blur, Field.to_str, type_shown]))

theorem fields_shown (x : Ext) : ∀ (cs : List (Codec × Disp)) (vs : List FieldVal), Field.allToStr x cs (vs.map FieldVal.blur) = Field.allToStr x cs vs
  | [], [] => rfl
  | [], _ :: _ => rfl
  | _ :: _, [] => rfl
  | c :: cs, v :: vs => by
    rw [List.map_cons]
    unfold Field.allToStr
    rw [field_shown, fields_shown x cs vs]

theorem data_shown (x : Ext) (d : RData) : d.blur.to_str x = d.to_str x := by
  unfold RData.to_str RData.blur
  dsimp only
  cases schema d.kind with
  | none => rfl
  | some cs => exact fields_shown x cs d.fields

/-! ## fields -/

theorem name_cut {a b : Name} {t u r s : List UInt8} (ha : a.WF) (hb : b.WF) (h1 : a.to_string = .ok t) (h2 : b.to_string = .ok u)
    (hr : Stops r ∨ r.head? = some 9) (hs : Stops s ∨ s.head? = some 9) (e : t ++ r = u ++ s) : a = b ∧ r = s := by
  obtain ⟨ls, v, rfl⟩ := ha
  obtain ⟨ks, w, rfl⟩ := hb
  obtain ⟨t', p1, p2⟩ := c05_prints v
  obtain ⟨u', q1, q2⟩ := c05_prints w
  rw [h1] at p1; cases p1
  rw [h2] at q1; cases q1
  have key : t = u ∧ r = s := by
    have light : ∀ z : List UInt8, Stops z ∨ z.head? = some 9 → z = [] ∨ ∃ c y, z = c :: y ∧ ¬ Dark c := by
      intro z hz
      rcases hz with (rfl | ⟨c, y, rfl, hc⟩) | hz
      · exact .inl rfl
      · exact .inr ⟨c, y, rfl, stop_light hc⟩
      · cases z with
        | nil => exact .inl rfl
        | cons c y => simp at hz; exact .inr ⟨c, y, rfl, by rw [hz]; unfold Dark; decide⟩
    rcases light r hr with rfl | ⟨c, y, rfl, hc⟩ <;> rcases light s hs with rfl | ⟨d, z, rfl, hd⟩
    · simpa using e
    · rw [List.append_nil] at e; exact absurd (p2 d (by rw [e]; simp)) hd
    · rw [List.append_nil] at e; exact absurd (q2 c (by rw [← e]; simp)) hc
    · obtain ⟨k1, k2, k3⟩ := dark_cut p2 q2 hc hd e
      exact ⟨k1, by rw [k2, k3]⟩
  refine ⟨?_, key.2⟩
  rw [(c05_text ks w).2.2 ls v (by rw [h1, h2, key.1])]

theorem b64_dark {x : Ext} (hx : x.Laws) (h0 : x.encode64 [] = []) (d : List UInt8) : ∀ c ∈ x.encode64 d, Dark c := by
  by_cases hd : d = []
  · subst hd; rw [h0]; intro c hc; cases hc
  · exact (hx.b64 d hd).1.2

theorem b64_inj {x : Ext} (hx : x.Laws) (h0 : x.encode64 [] = []) {d k : List UInt8} (e : x.encode64 d = x.encode64 k) : d = k := by
  by_cases hd : d = [] <;> by_cases hk : k = []
  · rw [hd, hk]
  · subst hd; rw [h0] at e; exact absurd e.symm (hx.b64 k hk).1.1
  · subst hk; rw [h0] at e; exact absurd e (hx.b64 d hd).1.1
  · have := (hx.b64 d hd).2
    rw [e, (hx.b64 k hk).2] at this
    exact (Option.some.inj this).symm

theorem hex_dark {d s : List UInt8} (h : Hex.to_hex d = .ok s) : ∀ c ∈ s, Dark c := by
  by_cases hd : d = []
  · subst hd; have : s = [] := (Res.ok.inj h).symm
    subst this; intro c hc; cases hc
  · exact (hex_word hd h).2

theorem stamp_dark (v : UInt32) : ∀ c ∈ Cal.format v, Dark c := by
  have key : ∀ c : UInt8, isAsciiDigit c = true → Dark c := by unfold Dark; apply forall_u8'; decide +kernel
  exact fun c hc => key c ((Field.timestamp_round v).2 c hc)

/-- the value of a field can be told from its text, whatever stands behind a blank after it -/
theorem field_tell {x : Ext} (hx : x.Laws) (h0 : x.encode64 [] = []) {p : Codec × Disp} {v w : FieldVal} (hp : samePair p = true)
    (hv : FieldTyped p.1 v) (hw : FieldTyped p.1 w) {t u r s : List UInt8} (h1 : Field.to_str x p.2 v = .ok t)
    (h2 : Field.to_str x p.2 w = .ok u) (hr : Stops r) (hs : Stops s) (e : t ++ r = u ++ s) : v.blur = w.blur ∧ r = s := by
  have word : (∀ c ∈ t, Dark c) → (∀ c ∈ u, Dark c) → (t = u → v.blur = w.blur) → v.blur = w.blur ∧ r = s := fun a b i =>
    let ⟨k1, k2⟩ := stops_cut a b hr hs e; ⟨i k1, k2⟩
  obtain ⟨c, d⟩ := p
  cases c <;> cases d <;> first
    | (simp [samePair] at hp; done)
    | (cases v <;> first | (simp [FieldTyped] at hv; done) | (cases w <;> first | (simp [FieldTyped] at hw; done) | skip))
  case name.name.name.name n k =>
    obtain ⟨k1, k2⟩ := name_cut hv hw h1 h2 (.inl hr) (.inl hs) e
    exact ⟨by rw [k1], k2⟩
  case ipv4.ipv4.ip.ip o k =>
    cases h1; cases h2
    exact word (hx.v4 o hv).1.2 (hx.v4 k hw).1.2 fun e => by
      have := (hx.v4 o hv).2
      rw [e, (hx.v4 k hw).2] at this
      rw [Option.some.inj this]
  case ipv6.ipv6.ip.ip o k =>
    cases h1; cases h2
    exact word (hx.v6 o hv).1.2 (hx.v6 k hw).1.2 fun e => by
      have := (hx.v6 o hv).2
      rw [e, (hx.v6 k hw).2] at this
      rw [Option.some.inj this]
  case u8.u8.u8.u8 a b =>
    cases h1; cases h2
    exact word (decimal_word _).2 (decimal_word _).2 fun e => by rw [UInt8.toNat_inj.1 (decimal_inj e)]
  case u16.u16.u16.u16 a b =>
    cases h1; cases h2
    exact word (decimal_word _).2 (decimal_word _).2 fun e => by rw [UInt16.toNat_inj.1 (decimal_inj e)]
  case u32.u32.u32.u32 a b =>
    cases h1; cases h2
    exact word (decimal_word _).2 (decimal_word _).2 fun e => by rw [UInt32.toNat_inj.1 (decimal_inj e)]
  case u32.timestamp.u32.u32 a b =>
    cases h1; cases h2
    exact word (stamp_dark _) (stamp_dark _) fun e => by
      have := (Field.timestamp_round a).1
      rw [e, (Field.timestamp_round b).1] at this
      rw [Res.ok.inj this]
  case rrtype.rrtype.rrtype.rrtype a b =>
    cases h1; cases h2
    exact word (type_word _).2 (type_word _).2 fun e => by simp only [FieldVal.blur, type_blur e]
  case text.text.text.text a b =>
    cases h1; cases h2
    obtain ⟨k1, k2⟩ := text_cut hr hs e
    exact ⟨by rw [k1], k2⟩
  case byte_binary.string.bytes.bytes a b =>
    cases h1; cases h2
    obtain ⟨k1, k2⟩ := string_cut e
    exact ⟨by rw [k1], k2⟩
  case binary.string.bytes.bytes a b =>
    cases h1; cases h2
    obtain ⟨k1, k2⟩ := string_cut e
    exact ⟨by rw [k1], k2⟩
  all_goals first
    | (cases h1; cases h2
       exact word (b64_dark hx h0 _) (b64_dark hx h0 _) fun e => by rw [b64_inj hx h0 e])
    | (rename_i a b
       exact word (hex_dark h1) (hex_dark h2) fun e => by
         have := Hex.c23_round_trip a t h1
         rw [e, Hex.c23_round_trip b u h2] at this
         rw [Option.some.inj this])

theorem fields_tell {x : Ext} (hx : x.Laws) (h0 : x.encode64 [] = []) : ∀ {cs : List (Codec × Disp)} {vs ws : List FieldVal},
    (∀ p ∈ cs, samePair p = true) → FieldsTyped cs vs → FieldsTyped cs ws →
    ∀ {t u r s : List UInt8}, Field.allToStr x cs vs = .ok t → Field.allToStr x cs ws = .ok u → Stops r → Stops s → t ++ r = u ++ s →
    vs.map FieldVal.blur = ws.map FieldVal.blur ∧ r = s
  | [], vs, ws, _, hv, hw, t, u, r, s, h1, h2, _, _, e => by
    cases vs <;> cases ws <;> simp [FieldsTyped] at hv hw
    cases h1; cases h2
    exact ⟨rfl, by simpa using e⟩
  | c :: cs, [], ws, _, hv, _, t, u, r, s, _, _, _, _, _ => by simp [FieldsTyped] at hv
  | c :: cs, v :: vs, [], _, _, hw, t, u, r, s, _, _, _, _, _ => by simp [FieldsTyped] at hw
  | c :: cs, v :: vs, w :: ws, hp, hv, hw, t, u, r, s, h1, h2, hr, hs, e => by
    obtain ⟨tv, a1⟩ := field_total x c v (hp c (by simp)) hv.1
    obtain ⟨tw, b1⟩ := field_total x c w (hp c (by simp)) hw.1
    unfold Field.allToStr at h1 h2
    rw [a1, Res.bind_ok] at h1
    rw [b1, Res.bind_ok] at h2
    by_cases hc : cs = []
    · rw [if_pos hc] at h1 h2
      cases h1; cases h2
      obtain ⟨k1, k2⟩ := field_tell hx h0 (hp c (by simp)) hv.1 hw.1 a1 b1 hr hs e
      subst hc
      have z : ∀ l, FieldsTyped [] l → l = [] := by intro l hl; cases l with
        | nil => rfl
        | cons _ _ => simp [FieldsTyped] at hl
      rw [z vs hv.2, z ws hw.2]
      exact ⟨by simp [k1], k2⟩
    · rw [if_neg hc] at h1 h2
      obtain ⟨rv, a2⟩ := fields_total x cs vs (fun p hq => hp p (by simp [hq])) hv.2
      obtain ⟨rw', b2⟩ := fields_total x cs ws (fun p hq => hp p (by simp [hq])) hw.2
      rw [a2, Res.bind_ok, Res.pure_eq] at h1
      rw [b2, Res.bind_ok, Res.pure_eq] at h2
      cases h1; cases h2
      simp only [List.append_assoc, List.singleton_append, List.cons_append, List.nil_append] at e
      obtain ⟨k1, k2⟩ := field_tell hx h0 (hp c (by simp)) hv.1 hw.1 a1 b1
        (.inr ⟨32, _, rfl, .inl rfl⟩) (.inr ⟨32, _, rfl, .inl rfl⟩) e
      obtain ⟨k3, k4⟩ := fields_tell hx h0 (fun p hq => hp p (by simp [hq])) hv.2 hw.2 a2 b2 hr hs (List.cons.inj k2).2
      exact ⟨by rw [List.map_cons, List.map_cons, k1, k3], k4⟩

/-! ## the octets of a text -/

theorem field_octets {x : Ext} (hx : x.Laws) (h0 : x.encode64 [] = []) {p : Codec × Disp} {v : FieldVal} (hp : samePair p = true)
    (hv : FieldTyped p.1 v) {t : List UInt8} (h1 : Field.to_str x p.2 v = .ok t) : ∀ c ∈ t, 32 ≤ c ∧ c < 127 := by
  have word : (∀ c ∈ t, Dark c) → ∀ c ∈ t, 32 ≤ c ∧ c < 127 := by
    have key : ∀ c : UInt8, Dark c → 32 ≤ c ∧ c < 127 := by unfold Dark; apply forall_u8'; decide +kernel
    exact fun h c hc => key c (h c hc)
  obtain ⟨c, d⟩ := p
  cases c <;> cases d <;> first
    | (simp [samePair] at hp; done)
    | (cases v <;> first
        | (simp [FieldTyped] at hv; done)
        | (obtain ⟨ls, k1, rfl⟩ := hv
           obtain ⟨t', k2, k3⟩ := c05_prints k1
           rw [show Name.to_string (Name.ofLabels ls) = .ok t from h1] at k2
           cases k2; exact word k3)
        | (cases h1; exact word (decimal_word _).2)
        | (cases h1; exact word (stamp_dark _))
        | (cases h1; exact word (type_word _).2)
        | (cases h1; exact word (hx.v4 _ hv).1.2)
        | (cases h1; exact word (hx.v6 _ hv).1.2)
        | (cases h1; exact word (b64_dark hx h0 _))
        | (cases h1; exact Field.string_to_str_ascii _)
        | exact word (hex_dark h1)
        | (rename_i ds
           cases h1
           have : ∀ ds : List (List UInt8), ∀ c ∈ Field.text_to_str ds, 32 ≤ c ∧ c < 127 := by
             intro ds
             induction ds with
             | nil => intro c hc; cases hc
             | cons d ds ih =>
               intro c hc
               rcases List.mem_append.1 hc with hc | hc
               · exact Field.string_to_str_ascii d c hc
               · exact ih c hc
           exact this ds))

theorem fields_octets {x : Ext} (hx : x.Laws) (h0 : x.encode64 [] = []) : ∀ {cs : List (Codec × Disp)} {vs : List FieldVal},
    (∀ p ∈ cs, samePair p = true) → FieldsTyped cs vs → ∀ {t : List UInt8}, Field.allToStr x cs vs = .ok t → ∀ c ∈ t, 32 ≤ c ∧ c < 127
  | [], vs, _, _, t, h1 => by cases h1; intro c hc; cases hc
  | c :: cs, [], _, hv, t, _ => by simp [FieldsTyped] at hv
  | c :: cs, v :: vs, hp, hv, t, h1 => by
    obtain ⟨tv, a1⟩ := field_total x c v (hp c (by simp)) hv.1
    have o1 := field_octets hx h0 (hp c (by simp)) hv.1 a1
    unfold Field.allToStr at h1
    rw [a1, Res.bind_ok] at h1
    by_cases hc : cs = []
    · rw [if_pos hc] at h1; cases h1; exact o1
    · rw [if_neg hc] at h1
      obtain ⟨rv, a2⟩ := fields_total x cs vs (fun p hq => hp p (by simp [hq])) hv.2
      have o2 := fields_octets hx h0 (fun p hq => hp p (by simp [hq])) hv.2 a2
      rw [a2, Res.bind_ok, Res.pure_eq] at h1
      cases h1
      intro c hc
      rcases List.mem_append.1 hc with hc | hc
      · rcases List.mem_append.1 hc with hc | hc
        · exact o1 c hc
        · rw [List.mem_singleton] at hc; subst hc; decide
      · exact o2 c hc

end R53
