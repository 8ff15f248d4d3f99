import Verif.Spec.Grammar
import Verif.Proofs.Std2
import Verif.Props.Text
import Verif.Props.NameText
/-!
# What the words of a line denote
-/
namespace R53
open StdText

/-! ## Numbers -/

theorem isAsciiDigit_iff (c : UInt8) : isAsciiDigit c = true ↔ digit 10 c = some (c.toNat - 48) := by
  have h := decDigit_iff c (c.toNat - 48)
  rw [← h]; unfold DecDigit isAsciiDigit; simp

theorem digit10_val {c : UInt8} {v : Nat} (h : digit 10 c = some v) : isAsciiDigit c = true ∧ v = c.toNat - 48 := by
  rw [← decDigit_iff] at h
  obtain ⟨h1, h2, h3⟩ := h
  exact ⟨by simp [isAsciiDigit]; omega, h3⟩

theorem numeral_ge : ∀ (s : List UInt8) (acc : Nat), acc ≤ numeral 10 s acc := by
  intro s
  induction s with
  | nil => intro acc; exact Nat.le_refl _
  | cons c t ih =>
    intro acc
    have : numeral 10 (c :: t) acc = numeral 10 t (acc * 10 + (digit 10 c).getD 0) := rfl
    rw [this]
    exact Nat.le_trans (by omega) (ih _)

theorem parseDigits_iff {max : Nat} : ∀ (s : List UInt8) (acc n : Nat), acc ≤ max →
    (parseDigits max s acc = .ok n ↔ (∀ c ∈ s, digit 10 c ≠ none) ∧ numeral 10 s acc = n ∧ n ≤ max) := by
  intro s
  induction s with
  | nil =>
    intro acc n ha
    have e : numeral 10 [] acc = acc := rfl
    simp only [parseDigits, Res.ok.injEq, e]
    constructor
    · rintro rfl; exact ⟨by simp, rfl, ha⟩
    · rintro ⟨-, rfl, -⟩; rfl
  | cons c t ih =>
    intro acc n ha
    have e : numeral 10 (c :: t) acc = numeral 10 t (acc * 10 + (digit 10 c).getD 0) := rfl
    rw [parseDigits.eq_def]
    simp only
    by_cases hc : isAsciiDigit c = true
    · rw [if_pos hc]
      have hd := (isAsciiDigit_iff c).1 hc
      rw [e, hd, Option.getD_some]
      by_cases hm : acc * 10 + (c.toNat - 48) ≤ max
      · rw [if_pos hm, ih _ n hm]
        constructor
        · rintro ⟨h1, h2, h3⟩
          refine ⟨?_, h2, h3⟩
          intro x hx
          rcases List.mem_cons.1 hx with rfl | hx
          · rw [hd]; simp
          · exact h1 x hx
        · rintro ⟨h1, h2, h3⟩
          exact ⟨fun x hx => h1 x (List.mem_cons_of_mem _ hx), h2, h3⟩
      · rw [if_neg hm]
        refine ⟨fun h => (by cases h), ?_⟩
        rintro ⟨-, h2, h3⟩
        have := numeral_ge t (acc * 10 + (c.toNat - 48))
        omega
    · rw [if_neg hc]
      refine ⟨fun h => (by cases h), ?_⟩
      rintro ⟨h1, -⟩
      cases hd : digit 10 c with
      | none => exact absurd hd (h1 c (by simp))
      | some v => exact absurd (digit10_val hd).1 hc

theorem dec_numeral {w : List UInt8} {n : Nat} : Numeral DecDigit 10 w n ↔ Num 10 n w :=
  ⟨numeral_num decDigit_iff, num_numeral decDigit_iff _ w n rfl⟩

theorem parseDigits_numeral {max : Nat} {s : List UInt8} {n : Nat} (hs : s ≠ []) :
    parseDigits max s 0 = .ok n ↔ Numeral DecDigit 10 s n ∧ n ≤ max := by
  rw [parseDigits_iff s 0 n (Nat.zero_le _), dec_numeral]
  exact ⟨fun ⟨h1, h2, h3⟩ => ⟨⟨hs, h1, h2⟩, h3⟩, fun ⟨h1, h3⟩ => ⟨h1.digits, h1.val, h3⟩⟩

theorem numeral_head {c : UInt8} {t : List UInt8} {n : Nat} (h : Numeral DecDigit 10 (c :: t) n) : isAsciiDigit c = true := by
  have := (dec_numeral.1 h).digits c (by simp)
  cases hd : digit 10 c with
  | none => exact absurd hd this
  | some v => exact (digit10_val hd).1

theorem numeral_nil {n : Nat} (h : Numeral DecDigit 10 [] n) : False := (dec_numeral.1 h).ne rfl

theorem parseNum_iff {max : Nat} {w : List UInt8} {n : Nat} : parseNum max w = .ok n ↔ NumberText max w n := by
  unfold NumberText
  cases w with
  | nil =>
    refine ⟨fun h => (by cases h), ?_⟩
    rintro ⟨-, h | ⟨t, h, -⟩⟩
    · exact (numeral_nil h).elim
    · cases h
  | cons c t =>
    rw [parseNum]
    by_cases hc : c = 43 ∧ t ≠ []
    · obtain ⟨rfl, ht⟩ := hc
      rw [if_pos ⟨rfl, ht⟩, parseDigits_numeral ht]
      constructor
      · rintro ⟨h1, h2⟩; exact ⟨h2, .inr ⟨t, rfl, h1⟩⟩
      · rintro ⟨h2, h | ⟨t', h, h1⟩⟩
        · exact absurd (numeral_head h) (by decide)
        · cases h; exact ⟨h1, h2⟩
    · rw [if_neg hc, parseDigits_numeral (by simp)]
      constructor
      · rintro ⟨h1, h2⟩; exact ⟨h2, .inl h1⟩
      · rintro ⟨h2, h | ⟨t', h, h1⟩⟩
        · exact ⟨h, h2⟩
        · cases h
          refine absurd ⟨rfl, ?_⟩ hc
          rintro rfl
          exact numeral_nil h1

/-! ## Times -/

theorem numeral_lt : ∀ (s : List UInt8) (acc : Nat), (∀ c ∈ s, digit 10 c ≠ none) → numeral 10 s acc < (acc + 1) * 10 ^ s.length := by
  intro s
  induction s with
  | nil => intro acc _; show acc < _; simp
  | cons c t ih =>
    intro acc h
    have e : numeral 10 (c :: t) acc = numeral 10 t (acc * 10 + (digit 10 c).getD 0) := rfl
    rw [e]
    cases hd : digit 10 c with
    | none => exact absurd hd (h c (by simp))
    | some v =>
      have hv : v < 10 := by
        rw [← decDigit_iff] at hd; unfold DecDigit at hd; omega
      have := ih (acc * 10 + v) (fun x hx => h x (List.mem_cons_of_mem _ hx))
      rw [Option.getD_some]
      refine Nat.lt_of_lt_of_le this ?_
      rw [List.length_cons, Nat.pow_succ, Nat.mul_comm (10 ^ t.length) 10, ← Nat.mul_assoc]
      exact Nat.mul_le_mul_right _ (by omega)

theorem numeral_bound {w : List UInt8} {n : Nat} (h : Numeral DecDigit 10 w n) : n < 10 ^ w.length := by
  have h' := dec_numeral.1 h
  have := numeral_lt w 0 h'.digits
  rw [h'.val] at this
  simpa using this

theorem numberText_bound {max : Nat} {w : List UInt8} {n : Nat} (h : NumberText max w n) : n < 10 ^ w.length := by
  obtain ⟨-, h | ⟨t, rfl, h⟩⟩ := h
  · exact numeral_bound h
  · have := numeral_bound h
    rw [List.length_cons, Nat.pow_succ]
    omega

theorem numberText_max {max max' : Nat} {w : List UInt8} {n : Nat} (h : NumberText max w n) (hn : n ≤ max') : NumberText max' w n := ⟨hn, h.2⟩

theorem numberText_two {w : List UInt8} {n : Nat} (hw : w.length = 2) : parseNum 255 w = .ok n ↔ NumberText 99 w n := by
  rw [parseNum_iff]
  constructor
  · intro h
    have := numberText_bound h
    rw [hw] at this
    exact numberText_max h (by omega)
  · intro h; exact numberText_max h (Nat.le_trans h.1 (by omega))

theorem parseInt_iff {w : List UInt8} {y : Int} (hw : w.length = 4) : parseInt w = .ok y ↔ YearText w y := by
  unfold YearText
  cases w with
  | nil => simp at hw
  | cons c t =>
    rw [parseInt]
    have hlt : t.length = 3 := by simpa using hw
    have ht : t ≠ [] := by rintro rfl; simp at hlt
    by_cases hc : c = 45 ∧ t ≠ []
    · rw [if_pos hc]
      obtain ⟨rfl, -⟩ := hc
      constructor
      · intro h
        obtain ⟨n, h1, h2⟩ := Res.bind_eq_ok.1 h
        rw [parseDigits_numeral ht] at h1
        cases h2
        exact .inr ⟨t, n, rfl, h1.1, rfl⟩
      · rintro (⟨n, ⟨-, h | ⟨t', h, -⟩⟩, -⟩ | ⟨t', n, h, h1, rfl⟩)
        · exact absurd (numeral_head h) (by decide)
        · injection h with h h'; exact absurd h (by decide)
        · cases h
          have := numeral_bound h1
          rw [hlt] at this
          rw [(parseDigits_numeral ht).2 ⟨h1, by omega⟩]
          rfl
    · rw [if_neg hc]
      have hc45 : c ≠ 45 := fun h => hc ⟨h, ht⟩
      constructor
      · intro h
        obtain ⟨n, h1, h2⟩ := Res.bind_eq_ok.1 h
        rw [parseNum_iff] at h1
        cases h2
        have := numberText_bound h1
        rw [hw] at this
        exact .inl ⟨n, numberText_max h1 (by omega), rfl⟩
      · rintro (⟨n, h, rfl⟩ | ⟨t', n, h, h1, rfl⟩)
        · rw [parseNum_iff.2 (numberText_max h (Nat.le_trans h.1 (by omega)))]
          rfl
        · injection h with h h'; exact absurd h hc45

theorem leap_iff (y : Int) : Cal.isLeap y = true ↔ LeapYear y := by
  rw [Cal.isLeap_iff]; unfold LeapYear; omega

theorem month_iff (y : Int) (mo d : Nat) :
    (1 ≤ mo ∧ mo ≤ 12 ∧ 1 ≤ d ∧ d ≤ Cal.daysInMonth y mo) ↔ ∃ day, DateIs y mo d day := by
  have key : ∀ mo, 1 ≤ mo → mo ≤ 12 → ∃ len before, monthTable[mo - 1]? = some (len, before) ∧
      Cal.daysInMonth y mo = len + (if LeapYear y ∧ mo = 2 then 1 else 0) := by
    intro mo h1 h2
    have hl := leap_iff y
    have : mo = 1 ∨ mo = 2 ∨ mo = 3 ∨ mo = 4 ∨ mo = 5 ∨ mo = 6 ∨ mo = 7 ∨ mo = 8 ∨ mo = 9 ∨ mo = 10 ∨ mo = 11 ∨ mo = 12 := by omega
    rcases this with rfl | rfl | rfl | rfl | rfl | rfl | rfl | rfl | rfl | rfl | rfl | rfl <;>
      refine ⟨_, _, rfl, ?_⟩ <;> unfold Cal.daysInMonth <;> by_cases h : LeapYear y <;> simp [h, hl.2, hl]
  constructor
  · rintro ⟨h1, h2, h3, h4⟩
    obtain ⟨len, before, k1, k2⟩ := key mo h1 h2
    exact ⟨_, len, before, h1, k1, h3, by rw [← k2]; exact h4, rfl⟩
  · rintro ⟨day, len, before, h1, k1, h3, h4, -⟩
    have h2 : mo ≤ 12 := by
      have := List.getElem?_eq_some_iff.1 k1
      obtain ⟨h, -⟩ := this
      have : mo - 1 < 12 := h
      omega
    obtain ⟨len', before', k1', k2⟩ := key mo h1 h2
    rw [k1] at k1'
    cases k1'
    exact ⟨h1, h2, h3, by rw [k2]; exact h4⟩

theorem date_day {y : Int} {mo d day : Nat} (h : DateIs y mo d day) : Cal.daysBeforeMonth y mo + (d - 1) = day := by
  obtain ⟨len, before, h1, k1, h3, h4, rfl⟩ := h
  have h2 : mo ≤ 12 := by
    have := List.getElem?_eq_some_iff.1 k1
    obtain ⟨h, -⟩ := this
    have : mo - 1 < 12 := h
    omega
  have hl := leap_iff y
  have : mo = 1 ∨ mo = 2 ∨ mo = 3 ∨ mo = 4 ∨ mo = 5 ∨ mo = 6 ∨ mo = 7 ∨ mo = 8 ∨ mo = 9 ∨ mo = 10 ∨ mo = 11 ∨ mo = 12 := by omega
  have : Cal.daysBeforeMonth y mo = before + (if LeapYear y ∧ 2 < mo then 1 else 0) := by
    rcases this with rfl | rfl | rfl | rfl | rfl | rfl | rfl | rfl | rfl | rfl | rfl | rfl <;>
      cases k1 <;> simp only [Cal.daysBeforeMonth, Cal.daysInMonth] <;> by_cases h : LeapYear y <;> simp [h, hl.2, hl]
  omega

theorem timestamp_iff {y : Int} {mo d h mi s : Nat} {t : Int} (hy : -100000 ≤ y ∧ y ≤ 100000) :
    Cal.timestamp y mo d h mi s = .ok t ↔ ∃ day, DateIs y mo d day ∧ h ≤ 23 ∧ mi ≤ 59 ∧ s ≤ 59 ∧ t = epochSeconds y day h mi s := by
  have form : ∀ day, DateIs y mo d day → (Cal.daysBeforeYear y + (Cal.daysBeforeMonth y mo : Int) + (d : Int) - 1) * 86400 + (h * 3600 + mi * 60 + s : Nat) =
      epochSeconds y day h mi s := by
    intro day hd
    have := date_day hd
    obtain ⟨-, -, -, -, h1, -⟩ := hd
    unfold Cal.daysBeforeYear epochSeconds
    omega
  unfold Cal.timestamp
  have hm := month_iff y mo d
  by_cases hc : -100000 ≤ y ∧ y ≤ 100000 ∧ 1 ≤ mo ∧ mo ≤ 12 ∧ 1 ≤ d ∧ d ≤ Cal.daysInMonth y mo ∧ h ≤ 23 ∧ mi ≤ 59 ∧ s ≤ 59
  · rw [if_pos hc]
    obtain ⟨-, -, c1, c2, c3, c4, c5⟩ := hc
    obtain ⟨day, hd⟩ := hm.1 ⟨c1, c2, c3, c4⟩
    constructor
    · intro h
      cases h
      exact ⟨day, hd, c5.1, c5.2.1, c5.2.2, form day hd⟩
    · rintro ⟨day', hd', -, -, -, rfl⟩
      rw [form day' hd']
  · rw [if_neg hc]
    refine ⟨fun h => (by cases h), ?_⟩
    rintro ⟨day, hd, k1, k2, k3, -⟩
    obtain ⟨c1, c2, c3, c4⟩ := hm.2 ⟨day, hd⟩
    exact absurd ⟨hy.1, hy.2, c1, c2, c3, c4, k1, k2, k3⟩ hc

end R53
