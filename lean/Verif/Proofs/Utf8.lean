import Verif.Proofs.Text
/-!
# The check of UTF-8 is the table of RFC 3629

`isUtf8` models `std::str::from_utf8(..).is_ok()`. Lean's `String.utf8EncodeChar` is an independent definition of the encoding of a character.
-/
namespace R53

theorem ofNat_toNat_lt {n : Nat} (h : n < 256) : (UInt8.ofNat n).toNat = n := by simp [UInt8.toNat_ofNat']; omega

theorem utf8_char (c : Char) (s : List UInt8) : isUtf8 (String.utf8EncodeChar c ++ s) = isUtf8 s := by
  have hv := c.valid
  unfold UInt32.isValidChar Nat.isValidChar at hv
  unfold String.utf8EncodeChar
  simp only
  generalize c.val.toNat = v at hv ⊢
  split
  · rename_i h
    rw [List.cons_append]
    conv => lhs; rw [isUtf8.eq_def]
    simp only
    rw [if_pos (by rw [ofNat_toNat_lt (by omega)]; omega)]; rfl
  · split
    · rename_i h1 h
      have e1 : (UInt8.ofNat (v / 64 % 32 + 192)).toNat = v / 64 % 32 + 192 := ofNat_toNat_lt (by omega)
      have e2 : (UInt8.ofNat (v % 64 + 128)).toNat = v % 64 + 128 := ofNat_toNat_lt (by omega)
      rw [List.cons_append, List.cons_append, isUtf8, if_neg (by omega), if_pos (by omega)]
      have : isCont (UInt8.ofNat (v % 64 + 128)) = true := by simp only [isCont, e2, Bool.and_eq_true, decide_eq_true_eq]; omega
      rw [this]; rfl
    · split
      · rename_i h1 h2 h
        have e1 : (UInt8.ofNat (v / 4096 % 16 + 224)).toNat = v / 4096 % 16 + 224 := ofNat_toNat_lt (by omega)
        have e2 : (UInt8.ofNat (v / 64 % 64 + 128)).toNat = v / 64 % 64 + 128 := ofNat_toNat_lt (by omega)
        have e3 : (UInt8.ofNat (v % 64 + 128)).toNat = v % 64 + 128 := ofNat_toNat_lt (by omega)
        rw [List.cons_append, List.cons_append, List.cons_append, isUtf8, if_neg (by omega), if_neg (by omega), if_pos (by omega)]
        generalize UInt8.ofNat (v / 4096 % 16 + 224) = x at e1
        generalize UInt8.ofNat (v / 64 % 64 + 128) = y at e2
        generalize UInt8.ofNat (v % 64 + 128) = z at e3
        have c2 : isCont y = true := by simp only [isCont, e2, Bool.and_eq_true, decide_eq_true_eq]; omega
        have c3 : isCont z = true := by simp only [isCont, e3, Bool.and_eq_true, decide_eq_true_eq]; omega
        have d1 : (x != 0xE0 || decide (0xA0 ≤ y.toNat)) = true := by
          by_cases hx : x = 0xE0
          · subst hx
            have : (0xE0 : UInt8).toNat = 224 := rfl
            simp; omega
          · simp [hx]
        have d2 : (x != 0xED || decide (y.toNat ≤ 0x9F)) = true := by
          by_cases hx : x = 0xED
          · subst hx
            have : (0xED : UInt8).toNat = 237 := rfl
            simp; omega
          · simp [hx]
        simp only [c2, c3, d1, d2, Bool.and_true, Bool.true_and, List.nil_append]
      · rename_i h1 h2 h3
        have e1 : (UInt8.ofNat (v / 262144 % 8 + 240)).toNat = v / 262144 % 8 + 240 := ofNat_toNat_lt (by omega)
        have e2 : (UInt8.ofNat (v / 4096 % 64 + 128)).toNat = v / 4096 % 64 + 128 := ofNat_toNat_lt (by omega)
        have e3 : (UInt8.ofNat (v / 64 % 64 + 128)).toNat = v / 64 % 64 + 128 := ofNat_toNat_lt (by omega)
        have e4 : (UInt8.ofNat (v % 64 + 128)).toNat = v % 64 + 128 := ofNat_toNat_lt (by omega)
        rw [List.cons_append, List.cons_append, List.cons_append, List.cons_append, isUtf8, if_neg (by omega), if_neg (by omega), if_neg (by omega), if_pos (by omega)]
        generalize UInt8.ofNat (v / 262144 % 8 + 240) = x at e1
        generalize UInt8.ofNat (v / 4096 % 64 + 128) = y at e2
        generalize UInt8.ofNat (v / 64 % 64 + 128) = z at e3
        generalize UInt8.ofNat (v % 64 + 128) = w at e4
        have c2 : isCont y = true := by simp only [isCont, e2, Bool.and_eq_true, decide_eq_true_eq]; omega
        have c3 : isCont z = true := by simp only [isCont, e3, Bool.and_eq_true, decide_eq_true_eq]; omega
        have c4 : isCont w = true := by simp only [isCont, e4, Bool.and_eq_true, decide_eq_true_eq]; omega
        have d1 : (x != 0xF0 || decide (0x90 ≤ y.toNat)) = true := by
          by_cases hx : x = 0xF0
          · subst hx
            have : (0xF0 : UInt8).toNat = 240 := rfl
            simp; omega
          · simp [hx]
        have d2 : (x != 0xF4 || decide (y.toNat ≤ 0x8F)) = true := by
          by_cases hx : x = 0xF4
          · subst hx
            have : (0xF4 : UInt8).toNat = 244 := rfl
            simp; omega
          · simp [hx]
        simp only [c2, c3, c4, d1, d2, Bool.and_true, Bool.true_and, List.nil_append]

/-- a character with the given code point -/
theorem char_of {v : Nat} (h : v < 0xD800 ∨ 0xDFFF < v ∧ v < 0x110000) : ∃ c : Char, c.val.toNat = v :=
  ⟨Char.ofNat v, by
    have : v.isValidChar := h
    rw [Char.ofNat, dif_pos this]
    simp [Char.ofNatAux]⟩

theorem u8_eq {a : UInt8} {n : Nat} (h : a.toNat = n) : UInt8.ofNat n = a := by
  rw [← h]; simp

theorem utf8_chars : ∀ (n : Nat) (s : List UInt8), s.length ≤ n → isUtf8 s = true → ∃ cs, utf8Of cs = s := by
  intro n
  induction n with
  | zero =>
    intro s hs _
    exact ⟨[], by rw [List.length_eq_zero_iff.mp (Nat.le_zero.mp hs)]; rfl⟩
  | succ n ih =>
    intro s hs h
    cases s with
    | nil => exact ⟨[], rfl⟩
    | cons a t =>
      simp only [List.length_cons] at hs
      have key : ∀ (c : Char) (r : List UInt8), r.length ≤ n → isUtf8 r = true → a :: t = String.utf8EncodeChar c ++ r → ∃ cs, utf8Of cs = a :: t := by
        intro c r h1 h2 h3
        obtain ⟨cs, hc⟩ := ih r h1 h2
        exact ⟨c :: cs, by rw [h3, ← hc]; rfl⟩
      rw [isUtf8.eq_def] at h
      simp only at h
      split at h
      · rename_i h1
        obtain ⟨c, hc⟩ := char_of (v := a.toNat) (by omega)
        refine key c t (by omega) h ?_
        unfold String.utf8EncodeChar
        simp only [hc]
        rw [if_pos (by omega), u8_eq rfl]; rfl
      · split at h
        · rename_i h0 h1
          cases t with
          | nil => simp at h
          | cons b t =>
            simp only [isCont, Bool.and_eq_true, decide_eq_true_eq] at h
            simp only [List.length_cons] at hs
            obtain ⟨c, hc⟩ := char_of (v := (a.toNat - 192) * 64 + (b.toNat - 128)) (by omega)
            refine key c t (by omega) h.2 ?_
            unfold String.utf8EncodeChar
            simp only [hc]
            rw [if_neg (by omega), if_pos (by omega), u8_eq (a := a) (by omega), u8_eq (a := b) (by omega)]; rfl
        · split at h
          · rename_i h0 h1 h2
            match t, h, hs with
            | b :: c :: t, h, hs =>
              simp only [isCont, Bool.and_eq_true, Bool.or_eq_true, bne_iff_ne, ne_eq, decide_eq_true_eq] at h
              simp only [List.length_cons] at hs
              obtain ⟨⟨⟨⟨g1, g2⟩, g3⟩, g4⟩, g5⟩ := h
              have g2' : a.toNat = 224 → 160 ≤ b.toNat := fun e => g2.resolve_left (fun hn => hn (by rw [← u8_eq e]; rfl))
              have g3' : a.toNat = 237 → b.toNat ≤ 159 := fun e => g3.resolve_left (fun hn => hn (by rw [← u8_eq e]; rfl))
              obtain ⟨x, hx⟩ := char_of (v := (a.toNat - 224) * 4096 + (b.toNat - 128) * 64 + (c.toNat - 128)) (by omega)
              refine key x t (by omega) g5 ?_
              unfold String.utf8EncodeChar
              simp only [hx]
              rw [if_neg (by omega), if_neg (by omega), if_pos (by omega), u8_eq (a := a) (by omega), u8_eq (a := b) (by omega), u8_eq (a := c) (by omega)]; rfl
          · split at h
            · rename_i h0 h1 h2 h3
              match t, h, hs with
              | b :: c :: d :: t, h, hs =>
                simp only [isCont, Bool.and_eq_true, Bool.or_eq_true, bne_iff_ne, ne_eq, decide_eq_true_eq] at h
                simp only [List.length_cons] at hs
                obtain ⟨⟨⟨⟨⟨g1, g2⟩, g3⟩, g4⟩, g5⟩, g6⟩ := h
                have g2' : a.toNat = 240 → 144 ≤ b.toNat := fun e => g2.resolve_left (fun hn => hn (by rw [← u8_eq e]; rfl))
                have g3' : a.toNat = 244 → b.toNat ≤ 143 := fun e => g3.resolve_left (fun hn => hn (by rw [← u8_eq e]; rfl))
                obtain ⟨x, hx⟩ := char_of (v := (a.toNat - 240) * 262144 + (b.toNat - 128) * 4096 + (c.toNat - 128) * 64 + (d.toNat - 128)) (by omega)
                refine key x t (by omega) g6 ?_
                unfold String.utf8EncodeChar
                simp only [hx]
                rw [if_neg (by omega), if_neg (by omega), if_neg (by omega), u8_eq (a := a) (by omega), u8_eq (a := b) (by omega), u8_eq (a := c) (by omega),
                  u8_eq (a := d) (by omega)]; rfl
            · simp at h

/-- the check accepts exactly the octets of texts -/
theorem isUtf8_iff (s : List UInt8) : isUtf8 s = true ↔ ∃ cs : List Char, utf8Of cs = s := by
  constructor
  · exact utf8_chars s.length s (Nat.le_refl _)
  · rintro ⟨cs, rfl⟩
    unfold utf8Of
    induction cs with
    | nil => rfl
    | cons c cs ih => rw [List.flatMap_cons, utf8_char]; exact ih

end R53
