import Verif.Proofs.Words
import Verif.Proofs.Text5
import Verif.Props.Codes
/-!
# Times, types and classes
-/
namespace R53
open StdText

/-! ## Times -/

theorem strSlice_inv {s p : List UInt8} {a b : Nat} (h : strSlice s a b = .ok p) : p = (s.drop a).take (b - a) := by
  unfold strSlice at h
  split at h
  · unfold slice at h
    split at h
    · cases h; rfl
    · cases h
  · cases h

theorem numeral_ascii {w : List UInt8} {n : Nat} (h : Numeral DecDigit 10 w n) : ∀ c ∈ w, c.toNat < 0x80 := by
  intro c hc
  have := (dec_numeral.1 h).digits c hc
  cases hd : digit 10 c with
  | none => exact absurd hd this
  | some v =>
    have := (digit10_val hd).1
    simp [isAsciiDigit] at this
    omega

theorem numberText_ascii {max : Nat} {w : List UInt8} {n : Nat} (h : NumberText max w n) : ∀ c ∈ w, c.toNat < 0x80 := by
  obtain ⟨-, h | ⟨t, rfl, h⟩⟩ := h
  · exact numeral_ascii h
  · intro c hc
    rcases List.mem_cons.1 hc with rfl | hc
    · decide
    · exact numeral_ascii h c hc

theorem yearText_ascii {w : List UInt8} {y : Int} (h : YearText w y) : ∀ c ∈ w, c.toNat < 0x80 := by
  rcases h with ⟨n, h, -⟩ | ⟨t, n, rfl, h, -⟩
  · exact numberText_ascii h
  · intro c hc
    rcases List.mem_cons.1 hc with rfl | hc
    · decide
    · exact numeral_ascii h c hc

theorem yearText_bound {w : List UInt8} {y : Int} (hw : w.length = 4) (h : YearText w y) : -100000 ≤ y ∧ y ≤ 100000 := by
  rcases h with ⟨n, h, rfl⟩ | ⟨t, n, rfl, h, rfl⟩
  · have := h.1; omega
  · have := numeral_bound h
    rw [List.length_cons] at hw
    have hl : t.length = 3 := by omega
    rw [hl] at this
    omega

theorem stamp_iff (w : List UInt8) (v : UInt32) : Field.timestampParse w = .ok v ↔ StampText w v := by
  have fin : ∀ t : Int, UInt32.ofNat (t % 4294967296).toNat = v ↔ (v.toNat : Int) = t % 4294967296 := by
    intro t
    constructor
    · rintro rfl
      rw [UInt32.toNat_ofNat']
      omega
    · intro h
      apply UInt32.toNat_inj.1
      rw [UInt32.toNat_ofNat']
      omega
  constructor
  · intro h
    unfold Field.timestampParse at h
    obtain ⟨_, h0, h⟩ := Res.bind_eq_ok.1 h
    have hl : w.length = 14 := ensure_eq_ok.1 h0
    obtain ⟨wy, a1, h⟩ := Res.bind_eq_ok.1 h
    obtain ⟨y, b1, h⟩ := Res.bind_eq_ok.1 h
    obtain ⟨wm, a2, h⟩ := Res.bind_eq_ok.1 h
    obtain ⟨mo, b2, h⟩ := Res.bind_eq_ok.1 h
    obtain ⟨wd, a3, h⟩ := Res.bind_eq_ok.1 h
    obtain ⟨d, b3, h⟩ := Res.bind_eq_ok.1 h
    obtain ⟨-, -, h⟩ := Res.bind_eq_ok.1 h
    obtain ⟨wh, a4, h⟩ := Res.bind_eq_ok.1 h
    obtain ⟨hh, b4, h⟩ := Res.bind_eq_ok.1 h
    obtain ⟨wi, a5, h⟩ := Res.bind_eq_ok.1 h
    obtain ⟨mi, b5, h⟩ := Res.bind_eq_ok.1 h
    obtain ⟨ws, a6, h⟩ := Res.bind_eq_ok.1 h
    obtain ⟨sec, b6, h⟩ := Res.bind_eq_ok.1 h
    obtain ⟨t, b7, h⟩ := Res.bind_eq_ok.1 h
    replace a1 := strSlice_inv a1
    replace a2 := strSlice_inv a2
    replace a3 := strSlice_inv a3
    replace a4 := strSlice_inv a4
    replace a5 := strSlice_inv a5
    replace a6 := strSlice_inv a6
    have l1 : wy.length = 4 := by rw [a1]; simp; omega
    have l2 : wm.length = 2 := by rw [a2]; simp; omega
    have l3 : wd.length = 2 := by rw [a3]; simp; omega
    have l4 : wh.length = 2 := by rw [a4]; simp; omega
    have l5 : wi.length = 2 := by rw [a5]; simp; omega
    have l6 : ws.length = 2 := by rw [a6]; simp; omega
    rw [parseInt_iff l1] at b1
    rw [numberText_two l2] at b2
    rw [numberText_two l3] at b3
    rw [numberText_two l4] at b4
    rw [numberText_two l5] at b5
    rw [numberText_two l6] at b6
    obtain ⟨day, c1, c2, c3, c4, rfl⟩ := (timestamp_iff (yearText_bound l1 b1)).1 b7
    refine ⟨wy, wm, wd, wh, wi, ws, ?_, l1, l2, l3, l4, l5, l6, y, mo, d, hh, mi, sec, day, b1, b2, b3, b4, b5, b6, c1, c2, c3, c4, ?_⟩
    · rw [a1, a2, a3, a4, a5, a6]
      match w, hl with
      | [_, _, _, _, _, _, _, _, _, _, _, _, _, _], _ => rfl
    · exact (fin _).1 (by cases h; rfl)
  · rintro ⟨wy, wm, wd, wh, wi, ws, rfl, l1, l2, l3, l4, l5, l6, y, mo, d, hh, mi, sec, day, b1, b2, b3, b4, b5, b6, c1, c2, c3, c4, hv⟩
    have hasc : ∀ c ∈ wy ++ wm ++ wd ++ wh ++ wi ++ ws, c.toNat < 0x80 := by
      intro c hc
      simp only [List.mem_append] at hc
      rcases hc with ((((hc | hc) | hc) | hc) | hc) | hc
      · exact yearText_ascii b1 c hc
      · exact numberText_ascii b2 c hc
      · exact numberText_ascii b3 c hc
      · exact numberText_ascii b4 c hc
      · exact numberText_ascii b5 c hc
      · exact numberText_ascii b6 c hc
    have hy := yearText_bound l1 b1
    have h0 : Cal.timestamp y mo d 0 0 0 = .ok (epochSeconds y day 0 0 0) :=
      (timestamp_iff hy).2 ⟨day, c1, by omega, by omega, by omega, rfl⟩
    have h1 : Cal.timestamp y mo d hh mi sec = .ok (epochSeconds y day hh mi sec) := (timestamp_iff hy).2 ⟨day, c1, c2, c3, c4, rfl⟩
    have hlen : (wy ++ wm ++ wd ++ wh ++ wi ++ ws).length = 14 := by simp; omega
    have sl : ∀ a b, a ≤ b → b ≤ 14 → strSlice (wy ++ wm ++ wd ++ wh ++ wi ++ ws) a b = .ok (((wy ++ wm ++ wd ++ wh ++ wi ++ ws).drop a).take (b - a)) :=
      fun a b h h' => strSlice_ascii hasc h (by omega)
    unfold Field.timestampParse
    rw [ensure_bind_ok hlen, sl 0 4 (by omega) (by omega), sl 4 6 (by omega) (by omega), sl 6 8 (by omega) (by omega), sl 8 10 (by omega) (by omega),
      sl 10 12 (by omega) (by omega), sl 12 14 (by omega) (by omega)]
    simp only [Res.bind_ok]
    have p1 : ((wy ++ wm ++ wd ++ wh ++ wi ++ ws).drop 0).take (4 - 0) = wy := by
      match wy, l1, wm, l2, wd, l3, wh, l4, wi, l5, ws, l6 with
      | [_, _, _, _], _, [_, _], _, [_, _], _, [_, _], _, [_, _], _, [_, _], _ => rfl
    have p2 : ((wy ++ wm ++ wd ++ wh ++ wi ++ ws).drop 4).take (6 - 4) = wm := by
      match wy, l1, wm, l2, wd, l3, wh, l4, wi, l5, ws, l6 with
      | [_, _, _, _], _, [_, _], _, [_, _], _, [_, _], _, [_, _], _, [_, _], _ => rfl
    have p3 : ((wy ++ wm ++ wd ++ wh ++ wi ++ ws).drop 6).take (8 - 6) = wd := by
      match wy, l1, wm, l2, wd, l3, wh, l4, wi, l5, ws, l6 with
      | [_, _, _, _], _, [_, _], _, [_, _], _, [_, _], _, [_, _], _, [_, _], _ => rfl
    have p4 : ((wy ++ wm ++ wd ++ wh ++ wi ++ ws).drop 8).take (10 - 8) = wh := by
      match wy, l1, wm, l2, wd, l3, wh, l4, wi, l5, ws, l6 with
      | [_, _, _, _], _, [_, _], _, [_, _], _, [_, _], _, [_, _], _, [_, _], _ => rfl
    have p5 : ((wy ++ wm ++ wd ++ wh ++ wi ++ ws).drop 10).take (12 - 10) = wi := by
      match wy, l1, wm, l2, wd, l3, wh, l4, wi, l5, ws, l6 with
      | [_, _, _, _], _, [_, _], _, [_, _], _, [_, _], _, [_, _], _, [_, _], _ => rfl
    have p6 : ((wy ++ wm ++ wd ++ wh ++ wi ++ ws).drop 12).take (14 - 12) = ws := by
      match wy, l1, wm, l2, wd, l3, wh, l4, wi, l5, ws, l6 with
      | [_, _, _, _], _, [_, _], _, [_, _], _, [_, _], _, [_, _], _, [_, _], _ => rfl
    rw [p1, (parseInt_iff l1).2 b1, Res.bind_ok, p2, (numberText_two l2).2 b2, Res.bind_ok, p3, (numberText_two l3).2 b3, Res.bind_ok, h0, Res.bind_ok,
      p4, (numberText_two l4).2 b4, Res.bind_ok, p5, (numberText_two l5).2 b5, Res.bind_ok, p6, (numberText_two l6).2 b6, Res.bind_ok, h1, Res.bind_ok,
      (fin _).2 hv]
    rfl

/-! ## Types and classes -/

/-- two capitals that one small character stands for -/
def pairs : List (UInt8 × UInt8) := [(83, 83), (70, 70), (70, 73), (70, 76), (83, 84)]

/-- capitals and digits without such pairs -/
def capitals : List UInt8 → Bool
  | [] => true
  | c :: t => decide (c.toNat < 0x80) && (upperByte c == c) && !(pairs.contains (c, t.headD 0)) && capitals t

theorem capitals_cons {c : UInt8} {t : List UInt8} (h : capitals (c :: t) = true) :
    c.toNat < 0x80 ∧ upperByte c = c ∧ (c, t.headD 0) ∉ pairs ∧ capitals t = true := by
  simp only [capitals, Bool.and_eq_true, decide_eq_true_eq, beq_iff_eq, Bool.not_eq_true', List.contains_eq_mem, decide_eq_false_iff_not] at h
  exact ⟨h.1.1.1, h.1.1.2, h.1.2, h.2⟩

theorem case_lower : ∀ c : UInt8, lowerByte (upperByte c) = lowerByte c := forall_u8' (by decide +kernel)
theorem case_upper : ∀ c : UInt8, upperByte (lowerByte c) = upperByte c := forall_u8' (by decide +kernel)

theorem upper_letters : ∀ (n : Nat) (w m : List UInt8), w.length ≤ n → capitals m = true → (upperGo n w = m ↔ Letters w m) := by
  intro n
  induction n with
  | zero =>
    intro w m hw hm
    obtain rfl : w = [] := List.length_eq_zero_iff.1 (by omega)
    constructor
    · rintro rfl; exact .nil
    · intro h; cases h; rfl
  | succ n ih =>
    intro w m hw hm
    cases w with
    | nil =>
      constructor
      · intro h; obtain rfl : m = [] := h.symm; exact .nil
      · intro h; cases h; rfl
    | cons c t =>
      have hl : t.length ≤ n := by simpa using hw
      have e : upperGo (n + 1) (c :: t) = if c.toNat < 0x80 then upperByte c :: upperGo n t else match upperWide (c :: t) with
        | some (n', u) => u ++ upperGo n ((c :: t).drop n')
        | none => c :: upperGo n t := rfl
      constructor
      · intro h
        rw [e] at h
        by_cases hc : c.toNat < 0x80
        · rw [if_pos hc] at h
          subst h
          obtain ⟨-, -, -, h4⟩ := capitals_cons hm
          exact .letter hc (case_lower c).symm ((ih t _ hl h4).1 rfl)
        · rw [if_neg hc] at h
          have two : ∀ x y (r : List UInt8), m = x :: y :: r → (x, y) ∈ pairs → False := by
            rintro x y r rfl hp
            exact (capitals_cons hm).2.2.1 hp
          have wide : ∀ s : List UInt8, s = c :: t → upperWide s = none ∨ (∃ k x y u, upperWide s = some (k, x :: y :: u) ∧ (x, y) ∈ pairs) ∨
              (∃ r, s = 0xC5 :: 0xBF :: r ∧ upperWide s = some (2, [83])) ∨ (∃ r, s = 0xC4 :: 0xB1 :: r ∧ upperWide s = some (2, [73])) := by
            intro s _
            unfold upperWide
            split
            · exact .inr (.inl ⟨_, _, _, _, rfl, by decide⟩)
            · exact .inr (.inr (.inr ⟨_, rfl, rfl⟩))
            · exact .inr (.inr (.inl ⟨_, rfl, rfl⟩))
            · exact .inr (.inl ⟨_, _, _, _, rfl, by decide⟩)
            · exact .inr (.inl ⟨_, _, _, _, rfl, by decide⟩)
            · exact .inr (.inl ⟨_, _, _, _, rfl, by decide⟩)
            · exact .inr (.inl ⟨_, _, _, _, rfl, by decide⟩)
            · exact .inr (.inl ⟨_, _, _, _, rfl, by decide⟩)
            · exact .inr (.inl ⟨_, _, _, _, rfl, by decide⟩)
            · exact .inr (.inl ⟨_, _, _, _, rfl, by decide⟩)
            · exact .inl rfl
          rcases wide _ rfl with hU | ⟨k, x, y, u, hU, hp⟩ | ⟨r, hr, hU⟩ | ⟨r, hr, hU⟩
          · rw [hU] at h
            simp only at h
            subst h
            exact absurd (capitals_cons hm).1 hc
          · rw [hU] at h
            simp only at h
            exact (two x y _ h.symm hp).elim
          · rw [hU] at h
            simp only at h
            rw [hr] at h ⊢
            subst h
            refine .longS ((ih r _ ?_ (capitals_cons hm).2.2.2).1 rfl)
            injection hr with _ hr
            rw [hr] at hl
            simp at hl; omega
          · rw [hU] at h
            simp only at h
            rw [hr] at h ⊢
            subst h
            refine .dotlessI ((ih r _ ?_ (capitals_cons hm).2.2.2).1 rfl)
            injection hr with _ hr
            rw [hr] at hl
            simp at hl; omega
      · intro h
        rw [e]
        cases h with
        | @letter _ u _ m hc hu h =>
          obtain ⟨-, h2, -, h4⟩ := capitals_cons hm
          rw [if_pos hc, (ih t m hl h4).2 h, ← case_upper c, hu, case_upper, h2]
        | @longS w m h =>
          obtain ⟨-, -, -, h4⟩ := capitals_cons hm
          rw [if_neg (by decide)]
          show [83] ++ upperGo n w = _
          rw [(ih w m (by simp at hl; omega) h4).2 h]; rfl
        | @dotlessI w m h =>
          obtain ⟨-, -, -, h4⟩ := capitals_cons hm
          rw [if_neg (by decide)]
          show [73] ++ upperGo n w = _
          rw [(ih w m (by simp at hl; omega) h4).2 h]; rfl

theorem upper_iff {w m : List UInt8} (hm : capitals m = true) : toUppercase w = m ↔ Letters w m := upper_letters _ w m (Nat.le_refl _) hm

theorem type_iff (w : List UInt8) (t : RRType) : RRType.from_str w = .ok t ↔ TypeText w t := by
  have hp : ∀ p ∈ ianaTypes, capitals (ascii p.2) = true := by decide +kernel
  have h1 : RRType.from_str w = .ok t ↔ ∃ p ∈ ianaTypes, toUppercase w = ascii p.2 ∧ t = RRType.new (UInt16.ofNat p.1) := by
    constructor
    · intro h
      obtain ⟨h1, h2, h3⟩ := from_str_type_inv w t h
      by_cases hc : t = .CERT
      · exact ⟨(37, "CERT"), by decide, h2 hc, hc⟩
      · have h3 := h3 hc
        have key : ∀ t : RRType, t.Named → t ≠ .CERT → ∃ p ∈ ianaTypes, t.to_str = ascii p.2 ∧ t = RRType.new (UInt16.ofNat p.1) := by
          intro t h1 hc
          cases t
          case Unknown v => exact absurd rfl (h1 v)
          case CERT => exact absurd rfl hc
          case A => exact ⟨(1, "A"), by decide, by decide +kernel, rfl⟩
          case NS => exact ⟨(2, "NS"), by decide, by decide +kernel, rfl⟩
          case CNAME => exact ⟨(5, "CNAME"), by decide, by decide +kernel, rfl⟩
          case SOA => exact ⟨(6, "SOA"), by decide, by decide +kernel, rfl⟩
          case PTR => exact ⟨(12, "PTR"), by decide, by decide +kernel, rfl⟩
          case MX => exact ⟨(15, "MX"), by decide, by decide +kernel, rfl⟩
          case TXT => exact ⟨(16, "TXT"), by decide, by decide +kernel, rfl⟩
          case RP => exact ⟨(17, "RP"), by decide, by decide +kernel, rfl⟩
          case AAAA => exact ⟨(28, "AAAA"), by decide, by decide +kernel, rfl⟩
          case SRV => exact ⟨(33, "SRV"), by decide, by decide +kernel, rfl⟩
          case NAPTR => exact ⟨(35, "NAPTR"), by decide, by decide +kernel, rfl⟩
          case DNAME => exact ⟨(39, "DNAME"), by decide, by decide +kernel, rfl⟩
          case OPT => exact ⟨(41, "OPT"), by decide, by decide +kernel, rfl⟩
          case DS => exact ⟨(43, "DS"), by decide, by decide +kernel, rfl⟩
          case RRSIG => exact ⟨(46, "RRSIG"), by decide, by decide +kernel, rfl⟩
          case NSEC => exact ⟨(47, "NSEC"), by decide, by decide +kernel, rfl⟩
          case DNSKEY => exact ⟨(48, "DNSKEY"), by decide, by decide +kernel, rfl⟩
          case NSEC3 => exact ⟨(50, "NSEC3"), by decide, by decide +kernel, rfl⟩
          case NSEC3PARAM => exact ⟨(51, "NSEC3PARAM"), by decide, by decide +kernel, rfl⟩
          case TSIG => exact ⟨(250, "TSIG"), by decide, by decide +kernel, rfl⟩
          case IXFR => exact ⟨(251, "IXFR"), by decide, by decide +kernel, rfl⟩
          case AXFR => exact ⟨(252, "AXFR"), by decide, by decide +kernel, rfl⟩
          case ANY => exact ⟨(255, "ANY"), by decide, by decide +kernel, rfl⟩
          case URI => exact ⟨(256, "URI"), by decide, by decide +kernel, rfl⟩
          case CAA => exact ⟨(257, "CAA"), by decide, by decide +kernel, rfl⟩
        obtain ⟨p, k1, k2, k3⟩ := key t h1 hc
        exact ⟨p, k1, h3.trans k2, k3⟩
    · rintro ⟨p, hp, h, rfl⟩
      unfold RRType.from_str
      rw [h]
      have : ∀ p ∈ ianaTypes, RRType.from_str (ascii p.2) = .ok (RRType.new (UInt16.ofNat p.1)) ∧ toUppercase (ascii p.2) = ascii p.2 := by decide +kernel
      have k := (this p hp).1
      unfold RRType.from_str at k
      rw [(this p hp).2] at k
      exact k
  rw [h1]
  unfold TypeText
  constructor
  · rintro ⟨p, h, k, e⟩; exact ⟨p, h, (upper_iff (hp p h)).1 k, e⟩
  · rintro ⟨p, h, k, e⟩; exact ⟨p, h, (upper_iff (hp p h)).2 k, e⟩

theorem rcode_iff (w : List UInt8) (t : Rcode) : Rcode.from_str w = .ok t ↔ RcodeText w t := by
  have hp : ∀ p ∈ ianaRcodes ++ [(11, "RESERVED")], capitals (ascii p.2) = true := by decide +kernel
  have h1 : Rcode.from_str w = .ok t ↔ ∃ p ∈ ianaRcodes ++ [(11, "RESERVED")], toUppercase w = ascii p.2 ∧ t = Rcode.new (UInt8.ofNat p.1) := by
    constructor
    · intro h
      have h3 := from_str_rcode_inv w t h
      have key : ∀ t : Rcode, ∃ p ∈ ianaRcodes ++ [(11, "RESERVED")], t.to_str = ascii p.2 ∧ t = Rcode.new (UInt8.ofNat p.1) := by
        intro t
        cases t
        case NoError => exact ⟨(0, "NOERROR"), by decide, by decide +kernel, rfl⟩
        case FormErr => exact ⟨(1, "FORMERR"), by decide, by decide +kernel, rfl⟩
        case ServFail => exact ⟨(2, "SERVFAIL"), by decide, by decide +kernel, rfl⟩
        case NXDomain => exact ⟨(3, "NXDOMAIN"), by decide, by decide +kernel, rfl⟩
        case NotImp => exact ⟨(4, "NOTIMP"), by decide, by decide +kernel, rfl⟩
        case Refused => exact ⟨(5, "REFUSED"), by decide, by decide +kernel, rfl⟩
        case YXDomain => exact ⟨(6, "YXDOMAIN"), by decide, by decide +kernel, rfl⟩
        case YXRRset => exact ⟨(7, "YXRRSET"), by decide, by decide +kernel, rfl⟩
        case NXRRset => exact ⟨(8, "NXRRSET"), by decide, by decide +kernel, rfl⟩
        case NotAuth => exact ⟨(9, "NOTAUTH"), by decide, by decide +kernel, rfl⟩
        case NotZone => exact ⟨(10, "NOTZONE"), by decide, by decide +kernel, rfl⟩
        case Reserved => exact ⟨(11, "RESERVED"), by decide, by decide +kernel, rfl⟩
      obtain ⟨p, k1, k2, k3⟩ := key t
      exact ⟨p, k1, h3.trans k2, k3⟩
    · rintro ⟨p, hp, h, rfl⟩
      unfold Rcode.from_str
      rw [h]
      have : ∀ p ∈ ianaRcodes ++ [(11, "RESERVED")], Rcode.from_str (ascii p.2) = .ok (Rcode.new (UInt8.ofNat p.1)) ∧ toUppercase (ascii p.2) = ascii p.2 := by decide +kernel
      have k := (this p hp).1
      unfold Rcode.from_str at k
      rw [(this p hp).2] at k
      exact k
  rw [h1]
  unfold RcodeText
  constructor
  · rintro ⟨p, h, k, e⟩; exact ⟨p, h, (upper_iff (hp p h)).1 k, e⟩
  · rintro ⟨p, h, k, e⟩; exact ⟨p, h, (upper_iff (hp p h)).2 k, e⟩

theorem class_iff (w : List UInt8) (t : RRClass) : RRClass.from_str w = .ok t ↔ ClassText w t := by
  have hp : ∀ p ∈ ianaClasses, capitals (ascii p.2) = true := by decide +kernel
  have h1 : RRClass.from_str w = .ok t ↔ ∃ p ∈ ianaClasses, toUppercase w = ascii p.2 ∧ t = RRClass.new (UInt16.ofNat p.1) := by
    constructor
    · intro h
      obtain ⟨h1, h3⟩ := from_str_class_inv w t h
      have key : ∀ t : RRClass, t.Named → ∃ p ∈ ianaClasses, t.to_str = ascii p.2 ∧ t = RRClass.new (UInt16.ofNat p.1) := by
        intro t h1
        cases t
        case Unknown v => exact absurd rfl (h1 v)
        case IN => exact ⟨(1, "IN"), by decide, by decide +kernel, rfl⟩
        case CH => exact ⟨(3, "CH"), by decide, by decide +kernel, rfl⟩
        case HS => exact ⟨(4, "HS"), by decide, by decide +kernel, rfl⟩
        case NONE => exact ⟨(254, "NONE"), by decide, by decide +kernel, rfl⟩
        case ANY => exact ⟨(255, "ANY"), by decide, by decide +kernel, rfl⟩
      obtain ⟨p, k1, k2, k3⟩ := key t h1
      exact ⟨p, k1, h3.trans k2, k3⟩
    · rintro ⟨p, hp, h, rfl⟩
      unfold RRClass.from_str
      rw [h]
      have : ∀ p ∈ ianaClasses, RRClass.from_str (ascii p.2) = .ok (RRClass.new (UInt16.ofNat p.1)) ∧ toUppercase (ascii p.2) = ascii p.2 := by decide +kernel
      have k := (this p hp).1
      unfold RRClass.from_str at k
      rw [(this p hp).2] at k
      exact k
  rw [h1]
  unfold ClassText
  constructor
  · rintro ⟨p, h, k, e⟩; exact ⟨p, h, (upper_iff (hp p h)).1 k, e⟩
  · rintro ⟨p, h, k, e⟩; exact ⟨p, h, (upper_iff (hp p h)).2 k, e⟩

end R53
