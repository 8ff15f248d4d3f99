import Verif.Proofs.Header
import Verif.Spec.Codes
/-! # The flag word, octet by octet -/
namespace R53

theorem and_split (a b c d : Nat) (hb : b < 256) (hd : d < 256) : (a * 256 + b) &&& (c * 256 + d) = (a &&& c) * 256 + (b &&& d) := by
  have hbd : b &&& d < 2 ^ 8 := Nat.lt_of_le_of_lt Nat.and_le_left hb
  apply Nat.eq_of_testBit_eq
  intro i
  rw [Nat.testBit_and, Nat.mul_comm a 256, Nat.mul_comm c 256, Nat.mul_comm (a &&& c) 256, show 256 = 2 ^ 8 from rfl,
    Nat.testBit_two_pow_mul_add _ (by exact hb), Nat.testBit_two_pow_mul_add _ (by exact hd), Nat.testBit_two_pow_mul_add _ hbd]
  split <;> simp [Nat.testBit_and]

theorem or_split (a b c d : Nat) (hb : b < 256) (hd : d < 256) : (a * 256 + b) ||| (c * 256 + d) = (a ||| c) * 256 + (b ||| d) := by
  have hbd : b ||| d < 2 ^ 8 := Nat.or_lt_two_pow (by exact hb) (by exact hd)
  apply Nat.eq_of_testBit_eq
  intro i
  rw [Nat.testBit_or, Nat.mul_comm a 256, Nat.mul_comm c 256, Nat.mul_comm (a ||| c) 256, show 256 = 2 ^ 8 from rfl,
    Nat.testBit_two_pow_mul_add _ (by exact hb), Nat.testBit_two_pow_mul_add _ (by exact hd), Nat.testBit_two_pow_mul_add _ hbd]
  split <;> simp [Nat.testBit_or]

/-- re-encoding the flag word -/
def reword (flag : UInt16) : UInt16 :=
  ((((Opcode.new ((flag &&& OPCODE_MASK) >>> OPCODE_SHIFT).toUInt8).to_u8.toUInt16 <<< OPCODE_SHIFT) &&& OPCODE_MASK) |||
    ((Rcode.new (flag &&& RCODE_MASK).toUInt8).to_u8.toUInt16 &&& RCODE_MASK)) ||| ((flag &&& HEADERFLAG_MASK) &&& HEADERFLAG_MASK)

theorem opcode_shift (o : Opcode) : ((o.to_u8.toUInt16 <<< OPCODE_SHIFT) &&& OPCODE_MASK).toNat = (o.to_u8.toNat * 8) * 256 + 0 := by
  cases o <;> decide +kernel
theorem rcode_mask (c : Rcode) : (c.to_u8.toUInt16 &&& RCODE_MASK).toNat = 0 * 256 + c.to_u8.toNat := by
  cases c <;> decide +kernel

theorem hi_table : ∀ h : Fin 256, (Opcode.new (UInt8.ofNat (h.val / 8 % 16))).to_u8.toNat * 8 ||| (h.val &&& 0x87) =
    h.val / 128 * 128 + (if h.val / 8 % 16 ∈ [0, 1, 2, 4, 5] then h.val / 8 % 16 else 6) * 8 + h.val % 8 := by decide +kernel
theorem lo_table : ∀ l : Fin 256, (Rcode.new (UInt8.ofNat (l.val % 16))).to_u8.toNat ||| (l.val &&& 0xb0) =
    l.val / 128 * 128 + l.val / 16 % 4 * 16 + (if l.val % 16 ≤ 10 then l.val % 16 else 11) := by decide +kernel

theorem reword_norm (w : UInt16) : (reword w).toNat = normFlags w.toNat := by
  obtain ⟨h, l, hh, hl, hw⟩ : ∃ h l, h < 256 ∧ l < 256 ∧ w.toNat = h * 256 + l :=
    ⟨w.toNat / 256, w.toNat % 256, by have := w.toNat_lt; omega, by omega, by omega⟩
  have hop : ((w &&& OPCODE_MASK) >>> OPCODE_SHIFT).toUInt8 = UInt8.ofNat (h / 8 % 16) := by
    apply UInt8.toNat_inj.mp
    rw [UInt16.toNat_toUInt8, UInt16.toNat_shiftRight, UInt16.toNat_and, toNat_ofNat8 (by omega)]
    rw [show OPCODE_SHIFT.toNat % 16 = 11 from rfl, Nat.shiftRight_and_distrib, show OPCODE_MASK.toNat >>> 11 = 2 ^ 4 - 1 from rfl,
      Nat.and_two_pow_sub_one_eq_mod, Nat.shiftRight_eq_div_pow, hw]
    omega
  have hrc : (w &&& RCODE_MASK).toUInt8 = UInt8.ofNat (l % 16) := by
    apply UInt8.toNat_inj.mp
    rw [UInt16.toNat_toUInt8, UInt16.toNat_and, toNat_ofNat8 (by omega), show RCODE_MASK.toNat = 2 ^ 4 - 1 from rfl,
      Nat.and_two_pow_sub_one_eq_mod, hw]
    omega
  have hfl : ((w &&& HEADERFLAG_MASK) &&& HEADERFLAG_MASK).toNat = (h &&& 0x87) * 256 + (l &&& 0xb0) := by
    rw [UInt16.and_assoc, show HEADERFLAG_MASK &&& HEADERFLAG_MASK = HEADERFLAG_MASK from rfl, UInt16.toNat_and, hw,
      show HEADERFLAG_MASK.toNat = 0x87 * 256 + 0xb0 from rfl, and_split _ _ _ _ hl (by omega)]
  have hrlt : (Rcode.new (UInt8.ofNat (l % 16))).to_u8.toNat < 256 := UInt8.toNat_lt _
  have hblt : l &&& 0xb0 < 256 := Nat.lt_of_le_of_lt Nat.and_le_left hl
  unfold reword
  rw [UInt16.toNat_or, UInt16.toNat_or, opcode_shift, rcode_mask, hfl, hop, hrc,
    or_split _ _ _ _ (by omega) hrlt, or_split _ _ _ _ (by simpa using hrlt) hblt]
  have t1 := hi_table ⟨h, hh⟩
  have t2 := lo_table ⟨l, hl⟩
  simp only [Nat.zero_or, Nat.or_zero] at t1 t2 ⊢
  rw [t1, t2]
  unfold normFlags
  simp only
  have e1 : w.toNat / 2048 % 16 = h / 8 % 16 := by omega
  have e2 : w.toNat % 16 = l % 16 := by omega
  rw [e1, e2]
  omega

end R53
