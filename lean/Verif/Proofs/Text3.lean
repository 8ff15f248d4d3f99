import Verif.Proofs.Text2
/-!
# Numbers and timestamps in text
-/
namespace R53

theorem parseDigits_append {max : Nat} : ∀ (s t : List UInt8) (acc : Nat),
    parseDigits max (s ++ t) acc = (parseDigits max s acc >>= fun a => parseDigits max t a) := by
  intro s
  induction s with
  | nil => intro t acc; rfl
  | cons c s ih =>
    intro t acc
    rw [List.cons_append, parseDigits, parseDigits]
    split
    · simp only; split
      · exact ih _ _
      · rfl
    · rfl

theorem parseDigits_one {max x acc : Nat} (hx : x ≤ 9) (h : acc * 10 + x ≤ max) :
    parseDigits max [UInt8.ofNat (48 + x)] acc = .ok (acc * 10 + x) := by
  rw [parseDigits, if_pos (StrBuf.isDigit_digit hx)]
  simp only [StrBuf.toNat_digit hx, Nat.add_sub_cancel_left]
  rw [if_pos h]; rfl

/-- `decimal` gives digits -/
theorem decimal_digits (n : Nat) : decimal n ≠ [] ∧ ∀ c ∈ decimal n, isAsciiDigit c = true := by
  induction n using Nat.strongRecOn with
  | _ n ih =>
    rw [decimal]
    split
    · rename_i h
      refine ⟨by simp, ?_⟩
      intro c hc
      simp only [List.mem_singleton] at hc; subst hc
      exact StrBuf.isDigit_digit (by omega)
    · have := ih (n / 10) (by omega)
      refine ⟨by simp, ?_⟩
      intro c hc
      rcases List.mem_append.1 hc with h | h
      · exact this.2 c h
      · simp only [List.mem_singleton] at h; subst h
        exact StrBuf.isDigit_digit (by omega)

theorem parseDigits_decimal {max : Nat} (n : Nat) (h : n ≤ max) : parseDigits max (decimal n) 0 = .ok n := by
  induction n using Nat.strongRecOn with
  | _ n ih =>
    rw [decimal]
    split
    · rename_i h1
      rw [parseDigits_one (by omega) (by omega)]; congr 1; omega
    · rw [parseDigits_append, ih (n / 10) (by omega) (by omega), Res.bind_ok, parseDigits_one (by omega) (by omega)]
      congr 1; omega

theorem parseNum_decimal {max : Nat} (n : Nat) (h : n ≤ max) : parseNum max (decimal n) = .ok n := by
  obtain ⟨h1, h2⟩ := decimal_digits n
  have h3 := parseDigits_decimal n h
  generalize decimal n = s at h1 h2 h3
  cases s with
  | nil => exact absurd rfl h1
  | cons c s => rw [StrBuf.parseNum_digit (h2 c (by simp)), h3]

theorem digit_ascii {c : UInt8} (h : isAsciiDigit c = true) : c.toNat < 0x80 ∧ ¬ Blank c := by
  revert c; apply forall_u8'; decide +kernel

/-! ## Calendar -/

namespace Cal

theorem isLeap_iff (y : Int) : isLeap y = true ↔ (y % 4 = 0 ∧ (y % 100 ≠ 0 ∨ y % 400 = 0)) := by
  simp [isLeap]

theorem daysBeforeYear_succ (y : Int) : daysBeforeYear (y + 1) = daysBeforeYear y + daysInYear y := by
  unfold daysBeforeYear daysInYear
  by_cases h : isLeap y = true
  · rw [if_pos h]; rw [isLeap_iff] at h; omega
  · rw [if_neg h]; rw [isLeap_iff] at h; omega

theorem daysBeforeYear_1970 : daysBeforeYear 1970 = 0 := by decide

theorem daysInYear_ge (y : Int) : 365 ≤ daysInYear y := by unfold daysInYear; split <;> omega

theorem splitYear_spec : ∀ (fuel y days : Nat), days ≤ 365 * fuel → 
    daysBeforeYear (splitYear fuel y days).1 + (splitYear fuel y days).2 = daysBeforeYear y + days ∧
    (splitYear fuel y days).2 < daysInYear (splitYear fuel y days).1 ∧ y ≤ (splitYear fuel y days).1 ∧
    365 * ((splitYear fuel y days).1 - y) ≤ days := by
  intro fuel
  induction fuel with
  | zero =>
    intro y days h
    have := daysInYear_ge y
    rw [splitYear]; simp only
    have : days = 0 := by omega
    subst this
    exact ⟨by simp, by omega, Nat.le_refl _, by omega⟩
  | succ fuel ih =>
    intro y days h
    rw [splitYear]
    have hy := daysInYear_ge y
    split
    · rename_i h1
      exact ⟨rfl, h1, Nat.le_refl _, by simp⟩
    · rename_i h1
      have := ih (y + 1) (days - daysInYear y) (by omega)
      obtain ⟨a, b, c, d⟩ := this
      refine ⟨?_, b, by omega, by omega⟩
      rw [a]
      have e := daysBeforeYear_succ y
      rw [show ((y + 1 : Nat) : Int) = (y : Int) + 1 by omega, e]
      omega

theorem daysBeforeMonth_succ (y : Int) {m : Nat} (h : 1 ≤ m) : daysBeforeMonth y (m + 1) = daysBeforeMonth y m + daysInMonth y m := by
  match m, h with
  | m + 1, _ => rw [daysBeforeMonth]; simp

theorem daysBeforeMonth_13 (y : Int) : daysBeforeMonth y 13 = daysInYear y := by
  unfold daysInYear
  simp only [daysBeforeMonth, daysInMonth]
  cases isLeap y <;> simp

theorem splitMonth_spec (y : Nat) : ∀ (fuel m days : Nat), 1 ≤ m → m + fuel = 12 →
    daysBeforeMonth y m + days < daysInYear y →
    daysBeforeMonth y (splitMonth y fuel m days).1 + (splitMonth y fuel m days).2 = daysBeforeMonth y m + days ∧
    1 ≤ (splitMonth y fuel m days).1 ∧ (splitMonth y fuel m days).1 ≤ 12 ∧
    (splitMonth y fuel m days).2 < daysInMonth y (splitMonth y fuel m days).1 := by
  intro fuel
  induction fuel with
  | zero =>
    intro m days h1 h2 h3
    have : m = 12 := by omega
    subst this
    rw [splitMonth]
    refine ⟨rfl, by omega, by omega, ?_⟩
    have := daysBeforeMonth_13 y
    rw [daysBeforeMonth_succ _ (by omega)] at this
    simp only
    omega
  | succ fuel ih =>
    intro m days h1 h2 h3
    rw [splitMonth]
    split
    · rename_i h4
      exact ⟨rfl, h1, by simp only; omega, h4⟩
    · rename_i h4
      have := ih (m + 1) (days - daysInMonth y m) (by omega) (by omega) (by rw [daysBeforeMonth_succ _ h1]; omega)
      obtain ⟨a, b, c, d⟩ := this
      refine ⟨?_, b, c, d⟩
      rw [a, daysBeforeMonth_succ _ h1]
      omega

theorem two_digits (n : Nat) : ∀ c ∈ two n, isAsciiDigit c = true := by
  intro c hc
  simp only [two, List.mem_cons, List.not_mem_nil, or_false] at hc
  rcases hc with h | h <;> subst h <;> exact StrBuf.isDigit_digit (by omega)

theorem parseDigits_two {max n acc : Nat} (h : n < 100) (hm : acc * 100 + n ≤ max) : parseDigits max (two n) acc = .ok (acc * 100 + n) := by
  have : two n = [UInt8.ofNat (48 + n / 10 % 10)] ++ [UInt8.ofNat (48 + n % 10)] := rfl
  rw [this, parseDigits_append, parseDigits_one (by omega) (by omega), Res.bind_ok, parseDigits_one (by omega) (by omega)]
  congr 1; omega

theorem parseNum_two {n : Nat} (h : n < 100) : parseNum 255 (two n) = .ok n := by
  have := parseDigits_two (max := 255) (acc := 0) h (by omega)
  rw [show parseNum 255 (two n) = parseDigits 255 (two n) 0 from StrBuf.parseNum_digit (two_digits n _ (by simp [two]))]
  simpa using this

theorem parseInt_four {a b : Nat} (ha : a < 100) (hb : b < 100) : parseInt (two a ++ two b) = .ok ((100 * a + b : Nat) : Int) := by
  have h1 := parseDigits_two (max := 2147483647) (acc := 0) ha (by omega)
  have h2 := parseDigits_two (max := 2147483647) (acc := a) hb (by omega)
  have h : parseDigits 2147483647 (two a ++ two b) 0 = .ok (100 * a + b) := by
    rw [parseDigits_append, h1, Res.bind_ok]
    rw [show 0 * 100 + a = a by omega, h2]; congr 1; omega
  have hd : isAsciiDigit (UInt8.ofNat (48 + a / 10 % 10)) = true := StrBuf.isDigit_digit (by omega)
  have e : two a ++ two b = UInt8.ofNat (48 + a / 10 % 10) :: (UInt8.ofNat (48 + a % 10) :: two b) := rfl
  rw [e] at h ⊢
  unfold parseInt
  simp only
  rw [if_neg (fun hh => (StrBuf.digit_ne_plus hd).2 hh.1)]
  rw [StrBuf.parseNum_digit hd, h]
  rfl

end Cal

/-- no cut inside a character in an ASCII text -/
theorem strSlice_ascii {s : List UInt8} {a b : Nat} (hs : ∀ c ∈ s, c.toNat < 0x80) (h1 : a ≤ b) (h2 : b ≤ s.length) :
    strSlice s a b = .ok ((s.drop a).take (b - a)) := by
  have key : ∀ i, i ≤ s.length → isCharBoundary s i = true := by
    intro i hi
    unfold isCharBoundary
    by_cases h : i = s.length
    · simp [h]
    · have hlt : i < s.length := by omega
      rw [List.getElem?_eq_getElem hlt]
      simp [ascii_not_cont (hs _ (List.getElem_mem hlt))]
  unfold strSlice
  rw [if_pos ⟨key a (by omega), key b h2⟩, slice_ok h1 h2]

namespace Field

/-- the parts of a formatted time -/
theorem timestampParse_two {a b c d e f g : Nat} (ha : a < 100) (hb : b < 100) (hc : c < 100) (hd : d < 100) (he : e < 100)
    (hf : f < 100) (hg : g < 100) {t : Int} (h0 : ∃ u, Cal.timestamp ((100 * a + b : Nat) : Int) c d 0 0 0 = .ok u)
    (ht : Cal.timestamp ((100 * a + b : Nat) : Int) c d e f g = .ok t) :
    timestampParse (Cal.two a ++ Cal.two b ++ Cal.two c ++ Cal.two d ++ Cal.two e ++ Cal.two f ++ Cal.two g) =
      .ok (UInt32.ofNat (t % 4294967296).toNat) := by
  obtain ⟨u, h0⟩ := h0
  have hs : ∀ x ∈ Cal.two a ++ Cal.two b ++ Cal.two c ++ Cal.two d ++ Cal.two e ++ Cal.two f ++ Cal.two g, x.toNat < 0x80 := by
    intro x hx
    simp only [List.mem_append] at hx
    have : isAsciiDigit x = true := by
      rcases hx with (((((h | h) | h) | h) | h) | h) | h <;> exact Cal.two_digits _ x h
    exact (digit_ascii this).1
  have hl : (Cal.two a ++ Cal.two b ++ Cal.two c ++ Cal.two d ++ Cal.two e ++ Cal.two f ++ Cal.two g).length = 14 := rfl
  unfold timestampParse
  rw [ensure_bind_ok hl]
  rw [strSlice_ascii hs (by omega) (by omega), Res.bind_ok]
  rw [show ((Cal.two a ++ Cal.two b ++ Cal.two c ++ Cal.two d ++ Cal.two e ++ Cal.two f ++ Cal.two g).drop 0).take (4 - 0) = Cal.two a ++ Cal.two b from rfl]
  rw [Cal.parseInt_four ha hb, Res.bind_ok]
  rw [strSlice_ascii hs (by omega) (by omega), Res.bind_ok]
  rw [show ((Cal.two a ++ Cal.two b ++ Cal.two c ++ Cal.two d ++ Cal.two e ++ Cal.two f ++ Cal.two g).drop 4).take (6 - 4) = Cal.two c from rfl]
  rw [Cal.parseNum_two hc, Res.bind_ok]
  rw [strSlice_ascii hs (by omega) (by omega), Res.bind_ok]
  rw [show ((Cal.two a ++ Cal.two b ++ Cal.two c ++ Cal.two d ++ Cal.two e ++ Cal.two f ++ Cal.two g).drop 6).take (8 - 6) = Cal.two d from rfl]
  rw [Cal.parseNum_two hd, Res.bind_ok]
  rw [h0, Res.bind_ok]
  rw [strSlice_ascii hs (by omega) (by omega), Res.bind_ok]
  rw [show ((Cal.two a ++ Cal.two b ++ Cal.two c ++ Cal.two d ++ Cal.two e ++ Cal.two f ++ Cal.two g).drop 8).take (10 - 8) = Cal.two e from rfl]
  rw [Cal.parseNum_two he, Res.bind_ok]
  rw [strSlice_ascii hs (by omega) (by omega), Res.bind_ok]
  rw [show ((Cal.two a ++ Cal.two b ++ Cal.two c ++ Cal.two d ++ Cal.two e ++ Cal.two f ++ Cal.two g).drop 10).take (12 - 10) = Cal.two f from rfl]
  rw [Cal.parseNum_two hf, Res.bind_ok]
  rw [strSlice_ascii hs (by omega) (by omega), Res.bind_ok]
  rw [show ((Cal.two a ++ Cal.two b ++ Cal.two c ++ Cal.two d ++ Cal.two e ++ Cal.two f ++ Cal.two g).drop 12).take (14 - 12) = Cal.two g from rfl]
  rw [Cal.parseNum_two hg, Res.bind_ok]
  rw [ht, Res.bind_ok]
  rfl

/-- formatting a time and reading it back -/
theorem timestamp_round (v : UInt32) :
    timestampParse (Cal.format v) = .ok v ∧ ∀ c ∈ Cal.format v, isAsciiDigit c = true := by
  have hv : v.toNat < 4294967296 := v.toNat_lt
  obtain ⟨a1, a2, a3, a4⟩ := Cal.splitYear_spec (v.toNat / 86400) 1970 (v.toNat / 86400) (by omega)
  rw [Cal.format]
  generalize hyd : Cal.splitYear (v.toNat / 86400) 1970 (v.toNat / 86400) = yd at a1 a2 a3 a4 ⊢
  have hdim := Cal.daysBeforeMonth_13 yd.1
  obtain ⟨b1, b2, b3, b4⟩ := Cal.splitMonth_spec yd.1 11 1 yd.2 (by omega) (by omega) (by rw [Cal.daysBeforeMonth]; omega)
  generalize hmd : Cal.splitMonth yd.1 11 1 yd.2 = md at b1 b2 b3 b4 ⊢
  refine ⟨?_, ?_⟩
  · have hd31 : Cal.daysInMonth yd.1 md.1 ≤ 31 := by
      unfold Cal.daysInMonth; split
      · split <;> omega
      · split <;> omega
    have hy : 100 * (yd.1 / 100) + yd.1 % 100 = yd.1 := by omega
    have t0 : ∀ h mi s, h ≤ 23 → mi ≤ 59 → s ≤ 59 → Cal.timestamp ((100 * (yd.1 / 100) + yd.1 % 100 : Nat) : Int) md.1 (md.2 + 1) h mi s =
        .ok ((Cal.daysBeforeYear yd.1 + (Cal.daysBeforeMonth yd.1 md.1 : Int) + ((md.2 + 1 : Nat) : Int) - 1) * 86400 + (h * 3600 + mi * 60 + s : Nat)) := by
      intro h mi s h1 h2 h3
      rw [hy]
      unfold Cal.timestamp
      rw [if_pos]
      refine ⟨by omega, by omega, b2, b3, by omega, by omega, h1, h2, h3⟩
    rw [timestampParse_two (by omega) (by omega) (by omega) (by omega) (by omega) (by omega) (by omega)
      ⟨_, t0 0 0 0 (by omega) (by omega) (by omega)⟩ (t0 _ _ _ (by omega) (by omega) (by omega))]
    congr 1
    rw [Cal.daysBeforeMonth] at b1
    have e0 := Cal.daysBeforeYear_1970
    have : ((Cal.daysBeforeYear yd.1 + (Cal.daysBeforeMonth yd.1 md.1 : Int) + ((md.2 + 1 : Nat) : Int) - 1) * 86400 +
        ((v.toNat % 86400) / 3600 * 3600 + (v.toNat % 86400) / 60 % 60 * 60 + (v.toNat % 86400) % 60 : Nat)) = (v.toNat : Int) := by
      have e1 : Cal.daysBeforeYear (yd.1 : Int) + (yd.2 : Int) = ((v.toNat / 86400 : Nat) : Int) := by
        rw [a1]
        have : ((1970 : Nat) : Int) = 1970 := rfl
        rw [this, e0]; omega
      omega
    rw [this]
    rw [show ((v.toNat : Int) % 4294967296).toNat = v.toNat by omega]
    simp
  · intro c hc
    simp only [List.mem_append] at hc
    rcases hc with (((((h | h) | h) | h) | h) | h) | h <;> exact Cal.two_digits _ c h

end Field
end R53
