import Verif.Model.Hex
import Verif.Spec.Hex
/-! # Property C23: hexadecimal text -/
namespace R53.Hex
open HexSpec

theorem forall_u8 {P : UInt8 → Prop} (h : ∀ n : Fin 256, P (UInt8.ofNat n.val)) (x : UInt8) : P x := by
  have := h ⟨x.toNat, x.toNat_lt⟩
  simpa using this

/-- the table of `digit` agrees with the specification, and spaces are not digits (all 256 octets) -/
theorem digit_val (c : UInt8) : digit c = (val c).map UInt8.ofNat := by
  revert c; apply forall_u8; decide +kernel
theorem isSpace_white (c : UInt8) : isSpace c = decide (white c) := by
  revert c; apply forall_u8; decide +kernel
theorem val_lt (c : UInt8) (v : Nat) (h : val c = some v) : v < 16 := by
  revert v; revert c; apply forall_u8; decide +kernel
theorem white_not_val (c : UInt8) (h : white c) : val c = none := by
  revert c; apply forall_u8; decide +kernel

theorem shl_or (buf : UInt8) (v : Nat) (hv : v < 16) :
    (buf <<< 4) ||| UInt8.ofNat v = UInt8.ofNat (16 * (buf.toNat % 16) + v) := by
  have key : ∀ v : Fin 16, ∀ b : UInt8, (b <<< 4) ||| UInt8.ofNat v.val = UInt8.ofNat (16 * (b.toNat % 16) + v.val) := by
    intro v; apply forall_u8; revert v; decide +kernel
  exact key ⟨v, hv⟩ buf

theorem shl_shr (buf : UInt8) : ((buf <<< 4) >>> 4).toNat = buf.toNat % 16 := by
  revert buf; apply forall_u8; decide +kernel

/-- meaning of the loop state: with `modulus = 1` the low nibble of `buf` is the pending digit -/
theorem fromLoop_spec (s b : List UInt8) (buf : UInt8) :
    (∀ r, fromLoop s b 0 buf = some r ↔ ∃ t, Spells s t ∧ r = b ++ t) ∧
    (∀ r, fromLoop s b 1 buf = some r ↔
      ∃ ws l s' lv t, s = ws ++ l :: s' ∧ (∀ c ∈ ws, white c) ∧ val l = some lv ∧ Spells s' t ∧
        r = b ++ UInt8.ofNat (16 * (buf.toNat % 16) + lv) :: t) := by
  induction s generalizing b buf with
  | nil =>
    constructor
    · intro r
      simp only [fromLoop, if_true, Option.some.injEq]
      constructor
      · rintro rfl; exact ⟨[], .nil, by simp⟩
      · rintro ⟨t, ht, rfl⟩; cases ht; simp
    · intro r
      simp [fromLoop]
  | cons c s ih =>
    have hd := digit_val c
    have hsp := isSpace_white c
    constructor
    · intro r
      simp only [fromLoop]
      match hv : val c with
      | some v =>
        rw [hv] at hd
        simp only [Option.map_some] at hd
        rw [hd]
        have hlt := val_lt c v hv
        simp only [show (0 + 1 = 2) = False from by simp, if_false]
        rw [Nat.zero_add, (ih b _).2 r, shl_or _ _ hlt]
        have e : (UInt8.ofNat (16 * (buf.toNat % 16) + v)).toNat % 16 = v := by
          simp; omega
        rw [e]
        constructor
        · rintro ⟨ws, l, s', lv, t, rfl, hws, hl, ht, rfl⟩
          exact ⟨_, .byte hws hv hl ht, rfl⟩
        · rintro ⟨t, ht, rfl⟩
          cases ht with
          | white hw _ => rw [white_not_val c hw] at hv; simp at hv
          | byte hws h1 h2 h3 =>
            rw [hv] at h1; cases h1
            exact ⟨_, _, _, _, _, rfl, hws, h2, h3, rfl⟩
      | none =>
        rw [hv] at hd
        simp only [Option.map_none] at hd
        rw [hd]
        by_cases hw : white c
        · simp only [hsp, hw, decide_true, if_true]
          rw [(ih b _).1 r]
          constructor
          · rintro ⟨t, ht, rfl⟩; exact ⟨t, .white hw ht, rfl⟩
          · rintro ⟨t, ht, rfl⟩
            cases ht with
            | white _ h => exact ⟨_, h, rfl⟩
            | byte _ h1 => rw [hv] at h1; simp at h1
        · simp only [hsp, hw, decide_false]
          simp only [Bool.false_eq_true, if_false, reduceCtorEq, false_iff]
          rintro ⟨t, ht, rfl⟩
          cases ht with
          | white h _ => exact hw h
          | byte _ h1 => rw [hv] at h1; simp at h1
    · intro r
      simp only [fromLoop]
      match hv : val c with
      | some v =>
        rw [hv] at hd
        simp only [Option.map_some] at hd
        rw [hd]
        have hlt := val_lt c v hv
        simp only [Nat.reduceAdd, if_true]
        rw [(ih _ _).1 r, shl_or _ _ hlt]
        constructor
        · rintro ⟨t, ht, rfl⟩
          exact ⟨[], c, s, v, t, rfl, by simp, hv, ht, by simp⟩
        · rintro ⟨ws, l, s', lv, t, hs, hws, hl, ht, rfl⟩
          cases ws with
          | nil =>
            simp only [List.nil_append, List.cons.injEq] at hs
            obtain ⟨rfl, rfl⟩ := hs
            rw [hv] at hl; cases hl
            exact ⟨t, ht, by simp⟩
          | cons w ws =>
            simp only [List.cons_append, List.cons.injEq] at hs
            obtain ⟨rfl, rfl⟩ := hs
            rw [white_not_val c (hws c (by simp))] at hv; simp at hv
      | none =>
        rw [hv] at hd
        simp only [Option.map_none] at hd
        rw [hd]
        by_cases hw : white c
        · simp only [hsp, hw, decide_true, if_true]
          rw [(ih b _).2 r, shl_shr]
          constructor
          · rintro ⟨ws, l, s', lv, t, rfl, hws, hl, ht, rfl⟩
            exact ⟨c :: ws, l, s', lv, t, rfl, by simpa [hw] using hws, hl, ht, by simp⟩
          · rintro ⟨ws, l, s', lv, t, hs, hws, hl, ht, rfl⟩
            cases ws with
            | nil =>
              simp only [List.nil_append, List.cons.injEq] at hs
              obtain ⟨rfl, rfl⟩ := hs
              rw [hv] at hl; simp at hl
            | cons w ws =>
              simp only [List.cons_append, List.cons.injEq] at hs
              obtain ⟨rfl, rfl⟩ := hs
              exact ⟨ws, l, s', lv, t, rfl, fun x hx => hws x (by simp [hx]), hl, ht, by simp⟩
        · simp only [hsp, hw, decide_false]
          simp only [Bool.false_eq_true, if_false, reduceCtorEq, false_iff]
          rintro ⟨ws, l, s', lv, t, hs, hws, hl, ht, rfl⟩
          cases ws with
          | nil =>
            simp only [List.nil_append, List.cons.injEq] at hs
            obtain ⟨rfl, rfl⟩ := hs
            rw [hv] at hl; simp at hl
          | cons w ws =>
            simp only [List.cons_append, List.cons.injEq] at hs
            exact hw (hs.1 ▸ hws w (by simp))

/-- **C23** `from_hex` accepts exactly the texts that spell octets, with the octets they spell;
in particular it returns `None` exactly for the others (a foreign character or an odd digit count). -/
theorem c23_from_hex (s b : List UInt8) : from_hex s = some b ↔ Spells s b := by
  unfold from_hex
  rw [(fromLoop_spec s [] 0).1 b]
  constructor
  · rintro ⟨t, ht, rfl⟩; simpa using ht
  · intro h; exact ⟨b, h, rfl⟩

theorem chars_spec (byte : UInt8) : ∃ a c, idx CHARS (byte >>> 4).toNat = .ok a ∧
    idx CHARS (byte &&& 0xf).toNat = .ok c ∧ val a = some (byte.toNat / 16) ∧ val c = some (byte.toNat % 16) := by
  have key : ∀ byte : UInt8,
      idx CHARS (byte >>> 4).toNat = .ok (CHARS[byte.toNat / 16]!) ∧
      idx CHARS (byte &&& 0xf).toNat = .ok (CHARS[byte.toNat % 16]!) ∧
      val (CHARS[byte.toNat / 16]!) = some (byte.toNat / 16) ∧
      val (CHARS[byte.toNat % 16]!) = some (byte.toNat % 16) := by
    apply forall_u8; decide +kernel
  exact ⟨_, _, (key byte).1, (key byte).2.1, (key byte).2.2.1, (key byte).2.2.2⟩

/-- **C23** `to_hex` never panics, gives two characters per octet, and spells its argument -/
theorem c23_to_hex (b : List UInt8) : ∃ s, to_hex b = .ok s ∧ Spells s b ∧ s.length = 2 * b.length := by
  induction b with
  | nil => exact ⟨[], rfl, .nil, rfl⟩
  | cons x b ih =>
    obtain ⟨s, h1, h2, h3⟩ := ih
    obtain ⟨a, c, e1, e2, e3, e4⟩ := chars_spec x
    refine ⟨a :: c :: s, ?_, ?_, ?_⟩
    · simp only [to_hex, e1, e2, h1, Res.bind_ok, Res.pure_eq]
    · have := Spells.byte (ws := []) (by simp) e3 e4 h2
      rw [show 16 * (x.toNat / 16) + x.toNat % 16 = x.toNat from Nat.div_add_mod _ _] at this
      simpa using this
    · simp [h3]; omega

/-- **C23** the round trip -/
theorem c23_round_trip (b s : List UInt8) (h : to_hex b = .ok s) : from_hex s = some b := by
  obtain ⟨s', h1, h2, _⟩ := c23_to_hex b
  rw [h1] at h; cases h
  exact (c23_from_hex s b).mpr h2

/-- white space may be inserted anywhere -/
theorem c23_white_space (s b : List UInt8) (h : Spells (s.filter (fun c => decide (¬ white c))) b) :
    from_hex s = some b := by
  have gen : ∀ n (s : List UInt8) b, s.length ≤ n → Spells (s.filter (fun c => decide (¬ white c))) b → Spells s b := by
    intro n
    induction n with
    | zero => intro s b hn h; cases s with
      | nil => exact h
      | cons => simp at hn
    | succ n ih =>
      intro s b hn h
      cases s with
      | nil => exact h
      | cons c s =>
        simp only [List.length_cons, Nat.add_le_add_iff_right] at hn
        by_cases hw : white c
        · rw [List.filter_cons_of_neg (by simp [hw])] at h
          exact .white hw (ih s b hn h)
        · rw [List.filter_cons_of_pos (by simp [hw])] at h
          generalize hf : s.filter (fun c => decide (¬ white c)) = f at h
          cases h with
          | white h1 _ => exact absurd h1 hw
          | @byte _ l s' b' ws hv lv hws hh hl ht =>
            have hws' : ws = [] := by
              cases ws with
              | nil => rfl
              | cons w ws =>
                have : w ∈ s.filter (fun c => decide (¬ white c)) := by rw [hf]; simp
                simp only [List.mem_filter, decide_eq_true_eq] at this
                exact absurd (hws w (by simp)) this.2
            subst hws'
            simp only [List.nil_append] at hf
            -- `s = ws2 ++ l :: s2` with `ws2` white and the filtered tail `s'`
            have : ∃ ws2 s2, s = ws2 ++ l :: s2 ∧ (∀ c ∈ ws2, white c) ∧
                s2.filter (fun c => decide (¬ white c)) = s' := by
              have hf' := List.filter_eq_cons_iff.mp hf
              obtain ⟨l1, l2, rfl, h1, _, h3⟩ := hf'
              exact ⟨l1, l2, rfl, fun c hc => by simpa using h1 c hc, h3⟩
            obtain ⟨ws2, s2, rfl, hw2, rfl⟩ := this
            refine .byte hw2 hh hl (ih s2 b' ?_ ht)
            simp at hn; omega
  exact (c23_from_hex s b).mpr (gen s.length s b (Nat.le_refl _) h)

/-- non-trivial instances: "0 1aF\n" and an odd digit count -/
example : from_hex [48, 32, 49, 97, 70, 10] = some [0x01, 0xaf] := by decide
example : from_hex [48, 49, 97] = none := by decide
example : to_hex [0x01, 0xa3] = .ok [48, 49, 97, 51] := by decide

end R53.Hex
