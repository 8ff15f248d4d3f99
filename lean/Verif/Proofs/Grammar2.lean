import Verif.Proofs.Grammar
import Verif.Proofs.Spaces
import Verif.Proofs.Words2
/-!
# Fields, record data and record sets
-/
namespace R53
open StrBuf StdText

theorem nameText_iff (w : List UInt8) (n : Name) : Name.new w = .ok n ↔ NameText w n := by
  rw [Name.new_dialect]
  unfold NameText
  cases h : readName w with
  | none => simp
  | some ls => simp [eq_comm]

theorem ofOption_some {α : Type} {o : Option α} {a : α} : Res.ofOption o = .ok a ↔ o = some a := by
  cases o <;> simp [Res.ofOption]

theorem dotted_iff (w o : List UInt8) : parseV4 w = some o ↔ w = dotted o ∧ o.length = 4 := by
  have four : o.length = 4 → showV4 o = dotted o := by
    intro h
    match o, h with
    | [a, b, c, d], _ => exact showV4_dotted a b c d
  constructor
  · intro h
    have hl := parseV4_length h
    exact ⟨by rw [← four hl]; exact parseV4_inv h, hl⟩
  · rintro ⟨rfl, hl⟩
    rw [← four hl]
    exact parseV4_show hl

theorem v6Text_iff (w o : List UInt8) : parseV6 w = some o ↔ ∃ vs, V6Text w vs ∧ o = pieceOctets vs := by
  constructor
  · exact parseV6_sound
  · rintro ⟨vs, h, rfl⟩; exact parseV6_complete h

theorem Takes.map {α β : Type} {m : St StrBuf α} {R : List UInt8 → α → List UInt8 → Prop} (h : Takes m R) (f : α → β) :
    Takes (m >>= fun a => Pure.pure (f a)) (fun s b r => ∃ a, R s a r ∧ b = f a) := by
  refine (h.bind (S := fun a s b r => b = f a ∧ r = s) fun a => Takes.pure (f a)).congr fun s b r _ => ?_
  constructor
  · rintro ⟨a, mid, h1, h2, rfl⟩; exact ⟨a, h1, h2⟩
  · rintro ⟨a, h1, h2⟩; exact ⟨a, r, h1, h2, rfl⟩

theorem takes_number {β : Type} (max : Nat) (f : Nat → β) (V : β → Nat → Prop) (hV : ∀ b n, n ≤ max → (V b n ↔ b = f n)) :
    Takes (StrBuf.read (parseNum max) >>= fun n => Pure.pure (f n)) (fun s b r => ∃ w n, FirstWord s w r ∧ NumberText max w n ∧ V b n) := by
  refine ((takes_read (parseNum max)).map f).congr fun s b r _ => ?_
  constructor
  · rintro ⟨n, ⟨w, h1, h2⟩, rfl⟩
    rw [parseNum_iff] at h2
    exact ⟨w, n, h1, h2, (hV _ n h2.1).2 rfl⟩
  · rintro ⟨w, n, h1, h2, h3⟩
    exact ⟨n, ⟨w, h1, parseNum_iff.2 h2⟩, (hV b n h2.1).1 h3⟩

theorem takes_base64 : Takes (Field.base64_from_str stdExt) (fun s v r => FieldText .base64 s v r) := by
  unfold Field.base64_from_str
  refine (takes_left.bind (S := fun o s v r => ∃ t d, o = some t ∧ v = .bytes d ∧ decode64 (Field.stripSpaces t.length t) = some d ∧ r = s) fun o => ?_).congr fun s v r _ => ?_
  · cases o with
    | none => exact Takes.fail.congr fun s v r _ => by simp
    | some t =>
      refine ((Takes.lift _).map FieldVal.bytes).congr fun s v r _ => ?_
      constructor
      · rintro ⟨a, ⟨h1, h2⟩, h3⟩
        exact ⟨t, a, rfl, h3, ofOption_some.1 h1, h2⟩
      · rintro ⟨t', d, h, h3, h1, h2⟩
        cases h
        exact ⟨d, ⟨ofOption_some.2 h1, h2⟩, h3⟩
  · constructor
    · rintro ⟨o, mid, ⟨h1, rfl⟩, t, d, h2, rfl, h3, rfl⟩
      by_cases hs : s = []
      · rw [if_pos hs] at h1; rw [h1] at h2; cases h2
      · rw [if_neg hs] at h1
        rw [h1] at h2
        cases h2
        exact ⟨hs, rfl, (base64_iff _ _).1 h3⟩
    · intro h
      cases v <;> try exact h.elim
      rename_i d
      obtain ⟨h1, rfl, h2⟩ := h
      exact ⟨some s, [], ⟨by rw [if_neg h1], rfl⟩, s, d, rfl, rfl, (base64_iff _ _).2 h2, rfl⟩

theorem takes_field (k : Disp) : Takes (Field.from_str stdExt k) (FieldText k) := by
  cases k with
  | name =>
    refine ((takes_read Name.new).map FieldVal.name).congr fun s v r _ => ?_
    constructor
    · rintro ⟨n, ⟨w, h1, h2⟩, rfl⟩; exact ⟨w, h1, (nameText_iff w n).1 h2⟩
    · intro h
      cases v <;> try exact h.elim
      rename_i n
      obtain ⟨w, h1, h2⟩ := h
      exact ⟨n, ⟨w, h1, (nameText_iff w n).2 h2⟩, rfl⟩
  | ipv4 =>
    refine ((takes_read fun s => Res.ofOption (stdExt.parseV4 s)).map FieldVal.ip).congr fun s v r _ => ?_
    constructor
    · rintro ⟨n, ⟨w, h1, h2⟩, rfl⟩
      obtain ⟨rfl, hl⟩ := (dotted_iff w n).1 (ofOption_some.1 h2)
      exact ⟨h1, hl⟩
    · intro h
      cases v <;> try exact h.elim
      rename_i n
      obtain ⟨h1, h2⟩ := h
      exact ⟨n, ⟨_, h1, ofOption_some.2 ((dotted_iff _ n).2 ⟨rfl, h2⟩)⟩, rfl⟩
  | ipv6 =>
    refine ((takes_read fun s => Res.ofOption (stdExt.parseV6 s)).map FieldVal.ip).congr fun s v r _ => ?_
    constructor
    · rintro ⟨n, ⟨w, h1, h2⟩, rfl⟩
      obtain ⟨vs, k1, k2⟩ := (v6Text_iff w n).1 (ofOption_some.1 h2)
      exact ⟨w, vs, h1, k1, k2⟩
    · intro h
      cases v <;> try exact h.elim
      rename_i n
      obtain ⟨w, vs, h1, h2, h3⟩ := h
      exact ⟨n, ⟨_, h1, ofOption_some.2 ((v6Text_iff _ n).2 ⟨vs, h2, h3⟩)⟩, rfl⟩
  | u8 =>
    refine (takes_number 255 (fun n => FieldVal.u8 (UInt8.ofNat n)) (fun b n => ∃ u : UInt8, b = .u8 u ∧ n = u.toNat) ?_).congr fun s v r _ => ?_
    · intro b n hn
      constructor
      · rintro ⟨u, rfl, rfl⟩; simp
      · rintro rfl; exact ⟨_, rfl, by rw [UInt8.toNat_ofNat']; omega⟩
    · constructor
      · rintro ⟨w, n, h1, h2, u, rfl, rfl⟩; exact ⟨w, h1, h2⟩
      · intro h
        cases v <;> try exact h.elim
        obtain ⟨w, h1, h2⟩ := h
        exact ⟨w, _, h1, h2, _, rfl, rfl⟩
  | u16 =>
    refine (takes_number 65535 (fun n => FieldVal.u16 (UInt16.ofNat n)) (fun b n => ∃ u : UInt16, b = .u16 u ∧ n = u.toNat) ?_).congr fun s v r _ => ?_
    · intro b n hn
      constructor
      · rintro ⟨u, rfl, rfl⟩; simp
      · rintro rfl; exact ⟨_, rfl, by rw [UInt16.toNat_ofNat']; omega⟩
    · constructor
      · rintro ⟨w, n, h1, h2, u, rfl, rfl⟩; exact ⟨w, h1, h2⟩
      · intro h
        cases v <;> try exact h.elim
        obtain ⟨w, h1, h2⟩ := h
        exact ⟨w, _, h1, h2, _, rfl, rfl⟩
  | u32 =>
    refine (takes_number 4294967295 (fun n => FieldVal.u32 (UInt32.ofNat n)) (fun b n => ∃ u : UInt32, b = .u32 u ∧ n = u.toNat) ?_).congr fun s v r _ => ?_
    · intro b n hn
      constructor
      · rintro ⟨u, rfl, rfl⟩; simp
      · rintro rfl; exact ⟨_, rfl, by rw [UInt32.toNat_ofNat']; omega⟩
    · constructor
      · rintro ⟨w, n, h1, h2, u, rfl, rfl⟩; exact ⟨w, h1, h2⟩
      · intro h
        cases v <;> try exact h.elim
        obtain ⟨w, h1, h2⟩ := h
        exact ⟨w, _, h1, h2, _, rfl, rfl⟩
  | rrtype =>
    refine ((takes_read RRType.from_str).map FieldVal.rrtype).congr fun s v r _ => ?_
    constructor
    · rintro ⟨n, ⟨w, h1, h2⟩, rfl⟩; exact ⟨w, h1, (type_iff w n).1 h2⟩
    · intro h
      cases v <;> try exact h.elim
      obtain ⟨w, h1, h2⟩ := h
      exact ⟨_, ⟨w, h1, (type_iff w _).2 h2⟩, rfl⟩
  | text =>
    refine (takes_text.map FieldVal.text).congr fun s v r _ => ?_
    constructor
    · rintro ⟨n, h, rfl⟩; exact h
    · intro h
      cases v <;> try exact h.elim
      exact ⟨_, h, rfl⟩
  | timestamp =>
    refine ((takes_read Field.timestampParse).map FieldVal.u32).congr fun s v r _ => ?_
    constructor
    · rintro ⟨n, ⟨w, h1, h2⟩, rfl⟩; exact ⟨w, h1, (stamp_iff w n).1 h2⟩
    · intro h
      cases v <;> try exact h.elim
      obtain ⟨w, h1, h2⟩ := h
      exact ⟨_, ⟨w, h1, (stamp_iff w _).2 h2⟩, rfl⟩
  | string =>
    refine (takes_char.map FieldVal.bytes).congr fun s v r _ => ?_
    constructor
    · rintro ⟨n, h, rfl⟩; exact h
    · intro h
      cases v <;> try exact h.elim
      exact ⟨_, h, rfl⟩
  | binary =>
    refine ((takes_read fun s => Res.ofOption (Hex.from_hex s)).map FieldVal.bytes).congr fun s v r _ => ?_
    constructor
    · rintro ⟨n, ⟨w, h1, h2⟩, rfl⟩; exact ⟨w, h1, (Hex.c23_from_hex w n).1 (ofOption_some.1 h2)⟩
    · intro h
      cases v <;> try exact h.elim
      obtain ⟨w, h1, h2⟩ := h
      exact ⟨_, ⟨w, h1, ofOption_some.2 ((Hex.c23_from_hex w _).2 h2)⟩, rfl⟩
  | base64 => exact takes_base64

theorem takes_fields : ∀ cs : List (Codec × Disp), Takes (Field.allFromStr stdExt cs) (FieldsText (cs.map Prod.snd))
  | [] => Takes.pure []
  | c :: cs => by
    refine ((takes_field c.2).bind (S := fun v s vs r => ∃ ws, FieldsText (cs.map Prod.snd) s ws r ∧ vs = v :: ws) fun v => (takes_fields cs).map (v :: ·)).congr
      fun s vs r _ => ?_
    constructor
    · rintro ⟨v, mid, h1, ws, h2, rfl⟩; exact ⟨mid, h1, h2⟩
    · intro h
      cases vs with
      | nil => exact h.elim
      | cons v ws =>
        obtain ⟨mid, h1, h2⟩ := h
        exact ⟨v, mid, h1, ws, h2, rfl⟩

theorem schema_form (t : RRType) : dataForm t = (schema t).map (·.map Prod.snd) := by cases t <;> rfl

theorem takes_data (typ : RRType) : Takes (RData.from_string_buffer stdExt typ) (fun s rd r => rd.kind = typ ∧ DataTextThen s rd r) := by
  unfold RData.from_string_buffer DataTextThen
  have hf := schema_form typ
  cases h : schema typ with
  | none =>
    rw [h] at hf
    exact Takes.fail.congr fun s rd r _ => ⟨False.elim, by rintro ⟨rfl, cs, h', -⟩; rw [hf] at h'; cases h'⟩
  | some cs =>
    rw [h, Option.map_some] at hf
    refine ((takes_fields cs).map (fun vs => (⟨typ, vs⟩ : RData))).congr fun s rd r _ => ?_
    constructor
    · rintro ⟨vs, h1, rfl⟩; exact ⟨rfl, _, hf, h1⟩
    · rintro ⟨rfl, cs', h', h1⟩
      rw [hf] at h'
      cases h'
      exact ⟨rd.fields, h1, rfl⟩

theorem any_only {w : List UInt8} {t : RRType} {c : RRClass} (h1 : RRType.from_str w = .ok t) (h2 : RRClass.from_str w = .ok c) : t = .ANY := by
  obtain ⟨a1, a2, a3⟩ := from_str_type_inv w t h1
  obtain ⟨b1, b2⟩ := from_str_class_inv w c h2
  refine Classical.byContradiction fun hn => ?_
  have key : ∀ (t : RRType) (c : RRClass), t.Named → c.Named → t ≠ .ANY → t.to_str ≠ c.to_str ∧ ascii "CERT" ≠ c.to_str := by
    intro t c ht hc hn
    cases c
    case Unknown v => exact absurd rfl (hc v)
    all_goals
      cases t
      case Unknown v => exact absurd rfl (ht v)
      case ANY => exact absurd rfl hn
      all_goals decide +kernel
  obtain ⟨k1, k2⟩ := key t c a1 b1 hn
  by_cases hc : t = .CERT
  · exact k2 ((a2 hc).symm.trans b2)
  · exact k1 ((a3 hc).symm.trans b2)

theorem takes_classType : Takes RRset.classType (fun s ct r =>
    (∃ wc s' wy, FirstWord s wc s' ∧ ClassText wc ct.1 ∧ FirstWord s' wy r ∧ TypeText wy ct.2) ∨
    (∃ wy, FirstWord s wy r ∧ (∀ c, ¬ ClassText wy c) ∧ TypeText wy ct.2 ∧ ct.1 = .IN)) := by
  unfold RRset.classType
  have inner : ∀ c : RRClass, Takes (do let w ← RRset.nextWord; let t ← St.lift (RRType.from_str w); Pure.pure (c, t))
      (fun s (ct : RRClass × RRType) r => ct.1 = c ∧ ∃ wy, FirstWord s wy r ∧ TypeText wy ct.2) := by
    intro c
    refine (takes_nextWord.bind (S := fun w s ct r => ct.1 = c ∧ TypeText w ct.2 ∧ r = s) fun w => ?_).congr fun s ct r _ => ?_
    · refine ((Takes.lift (RRType.from_str w)).map (fun t => (c, t))).congr fun s ct r _ => ?_
      constructor
      · rintro ⟨t, ⟨h1, h2⟩, rfl⟩; exact ⟨rfl, (type_iff w t).1 h1, h2⟩
      · rintro ⟨rfl, h1, h2⟩; exact ⟨ct.2, ⟨(type_iff w _).2 h1, h2⟩, rfl⟩
    · constructor
      · rintro ⟨w, mid, h1, h2, h3, rfl⟩; exact ⟨h2, w, h1, h3⟩
      · rintro ⟨h2, w, h1, h3⟩; exact ⟨w, r, h1, h2, h3, rfl⟩
  have direct : ∀ w : List UInt8, Takes (do let t ← St.lift (RRType.from_str w); Pure.pure (RRClass.IN, t))
      (fun s (ct : RRClass × RRType) r => ct.1 = .IN ∧ TypeText w ct.2 ∧ r = s) := by
    intro w
    refine ((Takes.lift (RRType.from_str w)).map (fun t => (RRClass.IN, t))).congr fun s ct r _ => ?_
    constructor
    · rintro ⟨t, ⟨h1, h2⟩, rfl⟩; exact ⟨rfl, (type_iff w t).1 h1, h2⟩
    · rintro ⟨h0, h1, h2⟩; exact ⟨ct.2, ⟨(type_iff w _).2 h1, h2⟩, by rw [← h0]⟩
  refine (takes_nextWord.bind (S := fun w s ct r => (∃ wy, ClassText w ct.1 ∧ FirstWord s wy r ∧ TypeText wy ct.2) ∨
    ((∀ c, ¬ ClassText w c) ∧ ct.1 = .IN ∧ TypeText w ct.2 ∧ r = s)) fun w => ?_).congr fun s ct r _ => ?_
  · cases h : RRClass.from_str w with
    | ok c =>
      refine (inner c).congr fun s ct r _ => ?_
      have hc := (class_iff w c).1 h
      constructor
      · rintro ⟨rfl, wy, h1, h2⟩; exact .inl ⟨wy, hc, h1, h2⟩
      · rintro (⟨wy, h1, h2, h3⟩ | ⟨hn, -⟩)
        · have := (class_iff w _).2 h1
          rw [h] at this
          cases this
          exact ⟨rfl, wy, h2, h3⟩
        · exact absurd hc (hn c)
    | err =>
      have hn : ∀ c, ¬ ClassText w c := fun c hc => by rw [(class_iff w c).2 hc] at h; cases h
      refine (direct w).congr fun s ct r _ => ?_
      constructor
      · rintro ⟨h1, h2, h3⟩; exact .inr ⟨hn, h1, h2, h3⟩
      · rintro (⟨wy, h1, -⟩ | ⟨-, h1⟩)
        · exact absurd h1 (hn _)
        · exact h1
    | panic =>
      have hn : ∀ c, ¬ ClassText w c := fun c hc => by rw [(class_iff w c).2 hc] at h; cases h
      refine (direct w).congr fun s ct r _ => ?_
      constructor
      · rintro ⟨h1, h2, h3⟩; exact .inr ⟨hn, h1, h2, h3⟩
      · rintro (⟨wy, h1, -⟩ | ⟨-, h1⟩)
        · exact absurd h1 (hn _)
        · exact h1
  · constructor
    · rintro ⟨w, mid, h1, ⟨wy, h2, h3, h4⟩ | ⟨h2, h3, h4, rfl⟩⟩
      · exact .inl ⟨w, mid, wy, h1, h2, h3, h4⟩
      · exact .inr ⟨w, h1, h2, h4, h3⟩
    · rintro (⟨w, mid, wy, h1, h2, h3, h4⟩ | ⟨w, h1, h2, h4, h3⟩)
      · exact ⟨w, mid, h1, .inl ⟨wy, h2, h3, h4⟩⟩
      · exact ⟨w, r, h1, .inr ⟨h2, h3, h4, rfl⟩⟩

theorem takes_set : Takes (RRset.parse stdExt) (fun s r rest => ∃ wn s1 wt s2 s3 rd, FirstWord s wn s1 ∧ NameText wn r.name ∧ FirstWord s1 wt s2 ∧
    NumberText 4294967295 wt r.ttl.toNat ∧
    ((∃ wc s2' wy, FirstWord s2 wc s2' ∧ ClassText wc r.class_ ∧ FirstWord s2' wy s3 ∧ TypeText wy r.typ) ∨
     (∃ wy, FirstWord s2 wy s3 ∧ TypeText wy r.typ ∧ r.class_ = .IN)) ∧
    rd.kind = r.typ ∧ DataTextThen s3 rd rest ∧ r.rdatas = [rd]) := by
  unfold RRset.parse
  refine (takes_nextWord.bind fun wn => (Takes.lift (Name.new wn)).bind fun name => takes_nextWord.bind fun wt =>
    (Takes.lift (parseNum 4294967295 wt)).bind fun ttl => takes_classType.bind fun ct => (takes_data ct.2).map fun rd =>
      (⟨name, ct.2, ct.1, UInt32.ofNat ttl, [rd]⟩ : RRset)).congr fun s r rest _ => ?_
  constructor
  · rintro ⟨wn, s1, h1, name, _, ⟨h2, rfl⟩, wt, s2, h3, ttl, _, ⟨h4, rfl⟩, ct, s3, h5, rd, ⟨h6, cs, h7, h8⟩, rfl⟩
    rw [parseNum_iff] at h4
    refine ⟨wn, _, wt, _, s3, rd, h1, (nameText_iff wn name).1 h2, h3, ?_, ?_, h6, ⟨cs, h7, h8⟩, rfl⟩
    · have := h4.1
      have e : (UInt32.ofNat ttl).toNat = ttl := by rw [UInt32.toNat_ofNat']; omega
      show NumberText _ _ (UInt32.ofNat ttl).toNat
      rw [e]; exact h4
    · rcases h5 with h5 | ⟨wy, k1, -, k3, k4⟩
      · exact .inl h5
      · exact .inr ⟨wy, k1, k3, k4⟩
  · rintro ⟨wn, s1, wt, s2, s3, rd, h1, h2, h3, h4, h5, h6, ⟨cs, h7, h8⟩, h9⟩
    refine ⟨wn, s1, h1, r.name, s1, ⟨(nameText_iff wn _).2 h2, rfl⟩, wt, s2, h3, r.ttl.toNat, s2, ⟨parseNum_iff.2 h4, rfl⟩, (r.class_, r.typ), s3, ?_, rd,
      ⟨h6, cs, h7, h8⟩, ?_⟩
    · rcases h5 with h5 | ⟨wy, k1, k3, k4⟩
      · exact .inl h5
      · refine .inr ⟨wy, k1, ?_, k3, k4⟩
        intro c hc
        have := any_only ((type_iff wy _).2 k3) ((class_iff wy c).2 hc)
        rw [h6, this] at h7
        cases h7
    · simp only [UInt32.ofNat_toNat]
      rw [← h9]

theorem parse_iff {s : List UInt8} (hs : isUtf8 s = true) (r : RRset) : (RRset.parse stdExt (cur [] s)).1 = .ok r ↔ SetText s r := by
  have h := takes_set [] s hs
  constructor
  · intro e
    obtain ⟨p, rest, -, -, wn, s1, wt, s2, s3, rd, h1, h2, h3, h4, h5, h6, ⟨cs, h7, h8⟩, h9⟩ := h.1 r _ (Prod.ext e rfl)
    exact ⟨wn, s1, wt, s2, s3, rd, h1, h2, h3, h4, h5, h6, ⟨rest, cs, h7, h8⟩, h9⟩
  · rintro ⟨wn, s1, wt, s2, s3, rd, h1, h2, h3, h4, h5, h6, ⟨rest, cs, h7, h8⟩, h9⟩
    obtain ⟨-, p, e⟩ := h.2 r rest ⟨wn, s1, wt, s2, s3, rd, h1, h2, h3, h4, h5, h6, ⟨cs, h7, h8⟩, h9⟩
    rw [e]

theorem parse_data_iff {s : List UInt8} (hs : isUtf8 s = true) (typ : RRType) (rd : RData) :
    (RData.from_string_buffer stdExt typ (cur [] s)).1 = .ok rd ↔ rd.kind = typ ∧ DataText s rd := by
  have h := takes_data typ [] s hs
  constructor
  · intro e
    obtain ⟨p, rest, -, -, h1, h2⟩ := h.1 rd _ (Prod.ext e rfl)
    exact ⟨h1, rest, h2⟩
  · rintro ⟨h1, rest, h2⟩
    obtain ⟨-, p, e⟩ := h.2 rd rest ⟨h1, h2⟩
    rw [e]

end R53
