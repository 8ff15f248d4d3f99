import Verif.Spec.Std
import Verif.Proofs.Std
/-!
# The texts of addresses and base64 against their grammars
-/
namespace R53.StdText

/-! ## dotted quads -/

theorem showV4_dotted (a b c d : UInt8) : showV4 [a, b, c, d] = dotted [a, b, c, d] := by
  have e : ascii "." = [46] := by decide
  simp [showV4, dotted, e]

theorem readV4_four {s t : List UInt8} {vs : List Nat} (h : readV4 4 0 s = some (vs, t)) :
    ∃ a b c d : UInt8, vs = [a, b, c, d].map (·.toNat) ∧ s = dotted [a, b, c, d] ++ t := by
  change readV4 (3 + 1) 0 s = _ at h
  have hl := readV4_length _ _ _ _ _ h
  rw [readV4] at h
  split at h
  · simp at h
  · rename_i v u h2
    split at h
    · simp at h
    · rename_i ws w h3
      simp at h; obtain ⟨rfl, rfl⟩ := h
      unfold readSep at h2
      rw [if_pos rfl] at h2
      obtain ⟨k1, k2⟩ := readByte_inv h2
      obtain ⟨k3, k4⟩ := readV4_inv _ _ _ _ _ h3
      have e : ∀ x : Nat, x < 256 → (UInt8.ofNat x).toNat = x := by intro x hx; simp; omega
      match ws, hl with
      | [x, y, z], _ =>
        have hx := e x (k3 x (by simp)); have hy := e y (k3 y (by simp)); have hz := e z (k3 z (by simp))
        refine ⟨UInt8.ofNat v, UInt8.ofNat x, UInt8.ofNat y, UInt8.ofNat z, ?_, ?_⟩
        · simp only [List.map_cons, List.map_nil, e v k1, hx, hy, hz]
        · have ed : ascii "." = [46] := by decide
          rw [k2, k4]; simp [dotted, ed, e v k1, hx, hy, hz]

/-! ## hexadecimal pieces -/

theorem hexDigit_iff (c : UInt8) (v : Nat) : HexDigit c v ↔ digit 16 c = some v := by
  have key : ∀ c : UInt8, (48 ≤ c ∧ c ≤ 57 ↔ 48 ≤ c.toNat ∧ c.toNat ≤ 57) ∧ (97 ≤ c ∧ c ≤ 102 ↔ 97 ≤ c.toNat ∧ c.toNat ≤ 102) ∧
      (65 ≤ c ∧ c ≤ 70 ↔ 65 ≤ c.toNat ∧ c.toNat ≤ 70) := by apply forall_u8'; decide +kernel
  obtain ⟨k1, k2, k3⟩ := key c
  unfold HexDigit digit
  split
  · rename_i h; rw [k1] at h; simp; omega
  · rename_i h; rw [k1] at h
    rw [if_pos rfl]
    split
    · rename_i h2; rw [k2] at h2; simp; omega
    · rename_i h2; rw [k2] at h2
      split
      · rename_i h3; rw [k3] at h3; simp; omega
      · rename_i h3; rw [k3] at h3; simp; omega

theorem digit16_lt {c : UInt8} {v : Nat} (h : digit 16 c = some v) : v < 16 := by
  rw [← hexDigit_iff] at h
  unfold HexDigit at h; omega

theorem decDigit_iff (c : UInt8) (v : Nat) : DecDigit c v ↔ digit 10 c = some v := by
  have key : ∀ c : UInt8, (48 ≤ c ∧ c ≤ 57 ↔ 48 ≤ c.toNat ∧ c.toNat ≤ 57) := by apply forall_u8'; decide +kernel
  have k1 := key c
  unfold DecDigit digit
  split
  · rename_i h; rw [k1] at h; simp; omega
  · rename_i h; rw [k1] at h
    rw [if_neg (by omega)]; simp; omega

theorem numeral_num {D : UInt8 → Nat → Prop} {radix : Nat} (hD : ∀ c v, D c v ↔ digit radix c = some v) {s : List UInt8} {v : Nat}
    (h : Numeral D radix s v) : Num radix v s := by
  induction h with
  | one h => exact num_single ((hD _ _).1 h)
  | @more s n c v _ h ih => have := num_snoc ih ((hD _ _).1 h); rwa [Nat.mul_comm] at this

theorem num_numeral {D : UInt8 → Nat → Prop} {radix : Nat} (hD : ∀ c v, D c v ↔ digit radix c = some v) :
    ∀ (k : Nat) (s : List UInt8) (v : Nat), s.length = k → Num radix v s → Numeral D radix s v := by
  intro k
  induction k with
  | zero => intro s v hk h; exact absurd (List.length_eq_zero_iff.1 hk) h.ne
  | succ k ih =>
    intro s v hk h
    have hne := h.ne
    have e := List.dropLast_concat_getLast hne
    generalize hc : s.getLast hne = c at e
    generalize ht : s.dropLast = t at e
    have hlt : t.length = k := by rw [← ht]; simp; omega
    cases hd : digit radix c with
    | none => exact absurd hd (h.digits c (by rw [← e]; simp))
    | some d =>
      have hD := (hD c d).2 hd
      have hv := h.val
      rw [← e, numeral_append, num_one hd] at hv
      rw [← e]
      by_cases h0 : t = []
      · subst h0
        have : v = d := by rw [← hv]; simp [numeral]
        rw [this]; exact .one hD
      · have := ih t (numeral radix t 0) hlt ⟨h0, fun x hx => h.digits x (by rw [← e]; simp [hx]), rfl⟩
        have e2 : v = radix * numeral radix t 0 + d := by rw [← hv, Nat.mul_comm]
        rw [e2]; exact .more this hD

theorem hexText_num {s : List UInt8} {v : Nat} (h : Numeral HexDigit 16 s v) : Num 16 v s := numeral_num hexDigit_iff h

theorem num_lt : ∀ (s : List UInt8) (acc : Nat), (∀ c ∈ s, digit 16 c ≠ none) → numeral 16 s acc < (acc + 1) * 16 ^ s.length := by
  intro s
  induction s with
  | nil => intro acc _; simp [numeral]
  | cons c s ih =>
    intro acc h
    cases hd : digit 16 c with
    | none => exact absurd hd (h c (by simp))
    | some d =>
      have := ih (acc * 16 + d) (fun x hx => h x (by simp [hx]))
      have e : numeral 16 (c :: s) acc = numeral 16 s (acc * 16 + d) := by simp [numeral, hd]
      rw [e, List.length_cons, Nat.pow_succ]
      have hdl := digit16_lt hd
      refine Nat.lt_of_lt_of_le this ?_
      rw [Nat.mul_comm (16 ^ s.length) 16, ← Nat.mul_assoc]
      exact Nat.mul_le_mul_right _ (by omega)

theorem piece_lt {s : List UInt8} {v : Nat} (h : Piece s v) : v < 65536 := by
  have hn := hexText_num h.1
  have := num_lt s 0 hn.digits
  rw [hn.val] at this
  have h2 : (16 : Nat) ^ s.length ≤ 16 ^ 4 := Nat.pow_le_pow_right (by omega) h.2
  omega

theorem readPiece {s rest : List UInt8} {v : Nat} (h : Piece s v) (hr : Stops 16 rest) : readNumber 16 4 65535 true (s ++ rest) = some (v, rest) := by
  have hn := hexText_num h.1
  have := readNumber_all (max := 4) (top := 65535) (zeros := true) hn.ne hn.digits h.2 hr (.inl rfl) (by rw [hn.val]; have := piece_lt h; omega)
  rw [this, hn.val]

theorem readV4_piece {s rest : List UInt8} (hs : ∀ c ∈ s, digit 16 c ≠ none) (hr : Stops 16 rest) (hd : rest.head? ≠ some 46) : readV4 4 0 (s ++ rest) = none := by
  show readV4 (3 + 1) 0 _ = none
  rw [readV4]
  simp only [readSep, if_true]
  cases h : readNumber 10 3 255 false (s ++ rest) with
  | none => rfl
  | some p =>
    obtain ⟨v, t⟩ := p
    have ht : t.head? ≠ some 46 := by
      unfold readNumber at h
      split at h
      · simp at h
      · rename_i c w u h1
        split at h
        · simp at h
        split at h
        · simp at h
        split at h
        · simp at h
        simp at h; obtain ⟨rfl, rfl⟩ := h
        exact readDigits_no_dot _ _ _ _ (fun c hc e => by subst e; exact hs _ hc (by decide)) (stops_16_10 hr) hd _ _ _ h1
    simp only
    show (match readV4 (2 + 1) 1 t with | none => none | some (vs, u) => some (v :: vs, u)) = none
    rw [readV4]
    have : readSep 46 1 (readNumber 10 3 255 false) t = none := by
      unfold readSep
      rw [if_neg (by omega)]
      cases t with
      | nil => rfl
      | cons c t =>
        simp only
        rw [if_neg]
        intro e; subst e; exact ht rfl
    rw [this]

/-- the text in front of which a colon stands if it is not the first -/
def pre (i : Nat) (t : List UInt8) : List UInt8 := if i = 0 then t else 58 :: t

theorem readSep_pre {α : Type} (f : List UInt8 → Option (α × List UInt8)) (i : Nat) (t : List UInt8) : readSep 58 i f (pre i t) = f t := by
  unfold readSep pre
  split
  · rfl
  · simp

theorem readSep_inv {α : Type} {f : List UInt8 → Option (α × List UInt8)} {i : Nat} {s : List UInt8} {r : α × List UInt8}
    (h : readSep 58 i f s = some r) : ∃ t, s = pre i t ∧ f t = some r := by
  unfold readSep at h
  split at h
  · rename_i hi; exact ⟨s, by simp [pre, hi], h⟩
  · rename_i hi
    split at h
    · rename_i c t
      split at h
      · rename_i hc; subst hc; exact ⟨t, by simp [pre, hi], h⟩
      · simp at h
    · simp at h

theorem pre_append (i : Nat) (s t : List UInt8) : pre i s ++ t = pre i (s ++ t) := by unfold pre; split <;> simp

theorem readGroups_piece {s rest : List UInt8} {v : Nat} (h : Piece s v) (left i : Nat) (hr : Stops 16 rest) (hd : rest.head? ≠ some 46) :
    readGroups (left + 1) i (pre i (s ++ rest)) = (v :: (readGroups left (i + 1) rest).1, (readGroups left (i + 1) rest).2) := by
  rw [readGroups]
  have v4 : (if left = 0 then none else readSep 58 i (readV4 4 0) (pre i (s ++ rest))) = none := by
    split
    · rfl
    · rw [readSep_pre]; exact readV4_piece (hexText_num h.1).digits hr hd
  have v6 : readSep 58 i (readNumber 16 4 65535 true) (pre i (s ++ rest)) = some (v, rest) := by
    rw [readSep_pre]; exact readPiece h hr
  simp only [v4, v6]

theorem colon : ascii ":" = [58] := by decide
theorem colons : ascii "::" = [58, 58] := by decide

theorem readGroups_pieces {s : List UInt8} {vs : List Nat} (h : Pieces s vs) : ∀ (left i : Nat) (rest : List UInt8), vs ≠ [] → vs.length ≤ left →
    Stops 16 rest → rest.head? ≠ some 46 →
    readGroups left i (pre i s ++ rest) = (vs ++ (readGroups (left - vs.length) (i + vs.length) rest).1, (readGroups (left - vs.length) (i + vs.length) rest).2) := by
  induction h with
  | none => intro _ _ _ h; exact absurd rfl h
  | @one s v hp =>
    intro left i rest _ hl hr hd
    obtain ⟨left, rfl⟩ : ∃ k, left = k + 1 := ⟨left - 1, by simp at hl; omega⟩
    rw [pre_append, readGroups_piece hp left i hr hd]; rfl
  | @more s t v w vs hp _ ih =>
    intro left i rest _ hl hr hd
    simp only [List.length_cons] at hl
    obtain ⟨left, rfl⟩ : ∃ k, left = k + 1 := ⟨left - 1, by omega⟩
    have ih := ih left (i + 1) rest (by simp) (by simp; omega) hr hd
    have e : s ++ ascii ":" ++ t ++ rest = s ++ (pre (i + 1) t ++ rest) := by simp [colon, pre]
    have hs : Stops 16 (pre (i + 1) t ++ rest) ∧ (pre (i + 1) t ++ rest).head? ≠ some 46 := by
      simp only [pre, show ¬ i + 1 = 0 by omega, if_false, List.cons_append]
      exact ⟨stops_colon _, by simp⟩
    rw [pre_append, e, readGroups_piece hp left i hs.1 hs.2, ih]
    simp only [List.length_cons, show left + 1 - (vs.length + 1 + 1) = left - (vs.length + 1) by omega,
      show i + (vs.length + 1 + 1) = i + 1 + (vs.length + 1) by omega]
    rfl

theorem readGroups_quad (left i : Nat) (a b c d : UInt8) (hl : 2 ≤ left) :
    readGroups left i (pre i (dotted [a, b, c, d])) = ([256 * a.toNat + b.toNat, 256 * c.toNat + d.toNat], true, []) := by
  obtain ⟨left, rfl⟩ : ∃ k, left = k + 1 := ⟨left - 1, by omega⟩
  have h3 := readV4_show (o := [a, b, c, d]) (rest := []) rfl (by intro c h; simp at h)
  rw [List.append_nil, showV4_dotted] at h3
  rw [readGroups]
  simp only [show ¬ left = 0 by omega, if_false, readSep_pre, h3, map_ofNat_toNat]
  rfl

theorem readGroups_last {s : List UInt8} {vs : List Nat} (h : LastPieces s vs) (left : Nat) (hl : vs.length ≤ left) :
    ∃ f, readGroups left 0 s = (vs, f, []) := by
  have st : Stops 16 ([] : List UInt8) := by intro c h; simp at h
  cases h with
  | pieces hp =>
    refine ⟨false, ?_⟩
    by_cases h0 : vs = []
    · subst h0
      cases hp
      exact readGroups_nil _ _
    · have := readGroups_pieces hp left 0 [] h0 hl st (by simp)
      rw [readGroups_nil] at this
      simpa [pre] using this
  | @quad a b c d => exact ⟨true, readGroups_quad left 0 a b c d hl⟩
  | @mixed s v vs a b c d hp =>
    refine ⟨true, ?_⟩
    simp only [List.length_append, List.length_cons, List.length_nil] at hl
    have e : s ++ ascii ":" ++ dotted [a, b, c, d] = pre 0 s ++ pre (0 + (v :: vs).length) (dotted [a, b, c, d]) := by
      simp [pre, colon]
    have k := readGroups_pieces hp left 0 (pre (0 + (v :: vs).length) (dotted [a, b, c, d])) (by simp) (by simp; omega)
      (by simp [pre]; exact stops_colon _) (by simp [pre])
    rw [e, k, readGroups_quad _ _ _ _ _ _ (by simp; omega)]

theorem octets_pieces : ∀ vs : List Nat, octets vs = pieceOctets vs
  | [] => rfl
  | v :: vs => by rw [octets, octets_pieces vs]; rfl

theorem parseV6_complete {s : List UInt8} {vs : List Nat} (h : V6Text s vs) : parseV6 s = some (pieceOctets vs) := by
  have key : readV6 s = some (vs, []) → parseV6 s = some (pieceOctets vs) := by
    intro h; unfold parseV6; rw [h]; simp only [octets_pieces]
  apply key
  cases h with
  | full h h8 =>
    obtain ⟨f, e⟩ := readGroups_last h 8 (by omega)
    unfold readV6
    simp only [e]
    rw [if_pos h8]
  | @short s t vs ws k hs ht hl hk =>
    have h1 : readGroups 8 0 (s ++ 58 :: 58 :: t) = (vs, false, 58 :: 58 :: t) := by
      by_cases h0 : vs = []
      · subst h0
        cases hs
        exact readGroups_colons _ _ _
      · have := readGroups_pieces hs 8 0 (58 :: 58 :: t) h0 (by omega) (stops_colon _) (by simp)
        rw [readGroups_colons] at this
        simpa [pre] using this
    obtain ⟨f, e⟩ := readGroups_last ht (8 - (vs.length + 1)) (by omega)
    have e0 : s ++ ascii "::" ++ t = s ++ 58 :: 58 :: t := by simp [colons]
    rw [e0]
    unfold readV6
    simp only [h1]
    rw [if_neg (by omega), if_neg (by simp)]
    simp only [readTail, e]
    rw [show 8 - vs.length - ws.length = k by omega]

/-! ### and nothing else -/

theorem readDigits_inv {radix max : Nat} : ∀ (s : List UInt8) (count acc n v : Nat) (t : List UInt8), count ≤ max → readDigits radix max s count acc = some (n, v, t) →
    ∃ p, s = p ++ t ∧ (∀ c ∈ p, digit radix c ≠ none) ∧ v = numeral radix p acc ∧ n = count + p.length ∧ n ≤ max := by
  intro s
  induction s with
  | nil => intro count acc n v t hc h; simp [readDigits] at h; obtain ⟨rfl, rfl, rfl⟩ := h; exact ⟨[], rfl, by simp, rfl, rfl, hc⟩
  | cons c s ih =>
    intro count acc n v t hc h
    rw [readDigits] at h
    split at h
    · simp at h; obtain ⟨rfl, rfl, rfl⟩ := h; exact ⟨[], rfl, by simp, rfl, rfl, hc⟩
    · rename_i d hd
      split at h
      · simp at h
      · obtain ⟨p, k1, k2, k3, k4, k5⟩ := ih _ _ _ _ _ (by omega) h
        refine ⟨c :: p, by rw [k1]; rfl, ?_, ?_, by simp; omega, k5⟩
        · intro x hx
          rcases List.mem_cons.mp hx with rfl | hx
          · rw [hd]; simp
          · exact k2 x hx
        · rw [k3]; simp [numeral, hd]

theorem readPiece_inv {s t : List UInt8} {v : Nat} (h : readNumber 16 4 65535 true s = some (v, t)) : ∃ p, s = p ++ t ∧ Piece p v := by
  unfold readNumber at h
  split at h
  · simp at h
  · rename_i n w u h1
    split at h
    · simp at h
    rename_i hn
    split at h
    · simp at h
    split at h
    · simp at h
    simp at h; obtain ⟨rfl, rfl⟩ := h
    obtain ⟨p, k1, k2, k3, k4, k5⟩ := readDigits_inv _ _ _ _ _ _ (by omega) h1
    have hne : p ≠ [] := by intro e; subst e; simp at k4; omega
    exact ⟨p, k1, num_numeral hexDigit_iff _ p w rfl ⟨hne, k2, k3.symm⟩, by omega⟩

theorem readGroups_inv : ∀ (left i : Nat) (s : List UInt8),
    ((readGroups left i s).1 = [] ∧ (readGroups left i s).2.1 = false ∧ (readGroups left i s).2.2 = s) ∨
    ∃ u, s = pre i u ++ (readGroups left i s).2.2 ∧ (readGroups left i s).1 ≠ [] ∧ LastPieces u (readGroups left i s).1 ∧
      ((readGroups left i s).2.1 = false → Pieces u (readGroups left i s).1) := by
  intro left
  induction left with
  | zero => intro i s; exact .inl ⟨rfl, rfl, rfl⟩
  | succ left ih =>
    intro i s
    rw [readGroups]
    split
    · rename_i vs t h
      right
      split at h
      · simp at h
      · obtain ⟨u, rfl, h'⟩ := readSep_inv h
        obtain ⟨a, b, c, d, rfl, rfl⟩ := readV4_four h'
        refine ⟨dotted [a, b, c, d], by rw [pre_append], ?_, ?_, ?_⟩
        · simp only [map_ofNat_toNat]; simp [segments]
        · simp only [map_ofNat_toNat]; exact .quad
        · intro h; simp at h
    · split
      · left; exact ⟨rfl, rfl, rfl⟩
      · rename_i v t h
        right
        obtain ⟨u, rfl, h'⟩ := readSep_inv h
        obtain ⟨p, rfl, hp⟩ := readPiece_inv h'
        dsimp only
        generalize hr : readGroups left (i + 1) t = r
        have ih := ih (i + 1) t
        rw [hr] at ih
        rcases ih with ⟨e1, e2, e3⟩ | ⟨w, e1, e2, e3, e4⟩
        · refine ⟨p, by rw [pre_append, e3], by simp, ?_, ?_⟩
          · rw [e1]; exact .pieces (.one hp)
          · intro _; rw [e1]; exact .one hp
        · refine ⟨p ++ ascii ":" ++ w, ?_, by simp, ?_, ?_⟩
          · rw [pre_append]; congr 1
            rw [show t = pre (i + 1) w ++ r.2.2 from e1]
            simp [pre, colon]
          · have hlist : ∀ x xs, r.1 = x :: xs → Pieces w (x :: xs) → LastPieces (p ++ ascii ":" ++ w) (v :: x :: xs) := fun x xs _ hw => .pieces (.more hp hw)
            generalize hr1 : r.1 = q at e2 e3 e4 hlist
            cases e3 with
            | pieces hw =>
              cases q with
              | nil => exact absurd rfl e2
              | cons x xs => exact hlist x xs rfl hw
            | @quad a b c d => exact .mixed (vs := []) (.one hp)
            | @mixed w' v' vs' a b c d hw =>
              have := LastPieces.mixed (a := a) (b := b) (c := c) (d := d) (.more hp hw)
              simpa [List.append_assoc] using this
          · intro hf
            have hw := e4 hf
            generalize hr1 : r.1 = q at e2 hw
            cases q with
            | nil => exact absurd rfl e2
            | cons x xs => exact .more hp hw

theorem parseV6_sound {s o : List UInt8} (h : parseV6 s = some o) : ∃ vs, V6Text s vs ∧ o = pieceOctets vs := by
  unfold parseV6 at h
  split at h
  · rename_i vs h1
    simp at h; subst h
    refine ⟨vs, ?_, octets_pieces vs⟩
    unfold readV6 at h1
    dsimp only at h1
    have hl := readGroups_length 8 0 s
    have hi := readGroups_inv 8 0 s
    generalize readGroups 8 0 s = r at h1 hl hi
    obtain ⟨hd, f, t⟩ := r
    dsimp only at h1 hl hi
    split at h1
    · rename_i h8
      simp at h1; obtain ⟨rfl, rfl⟩ := h1
      rcases hi with ⟨e, -, -⟩ | ⟨u, e1, -, e3, -⟩
      · rw [e] at h8; simp at h8
      · have : s = u := by simpa [pre] using e1
        rw [this]; exact .full e3 h8
    · rename_i h8
      split at h1
      · simp at h1
      rename_i hf
      have hf : f = false := by simpa using hf
      unfold readTail at h1
      split at h1
      · rename_i t'
        have h2 := Prod.mk.inj (Option.some.inj h1)
        obtain ⟨h2, h3⟩ := h2
        have hl2 := readGroups_length (8 - (hd.length + 1)) 0 t'
        have hi2 := readGroups_inv (8 - (hd.length + 1)) 0 t'
        generalize readGroups (8 - (hd.length + 1)) 0 t' = r2 at h2 h3 hl2 hi2
        obtain ⟨tl, f2, t2⟩ := r2
        dsimp only at h2 h3 hl2 hi2
        subst h3
        rw [← h2]
        have hT : LastPieces t' tl := by
          rcases hi2 with ⟨e, -, e3⟩ | ⟨u, e1, -, e3, -⟩
          · rw [e, ← e3]; exact .pieces .none
          · have : t' = u := by simpa [pre] using e1
            rw [this]; exact e3
        have hH : ∃ u, s = u ++ ascii "::" ++ t' ∧ Pieces u hd := by
          rcases hi with ⟨e, -, e3⟩ | ⟨u, e1, -, -, e4⟩
          · exact ⟨[], by rw [← e3]; simp [colons], by rw [e]; exact .none⟩
          · exact ⟨u, by rw [e1]; simp [pre, colons], e4 hf⟩
        obtain ⟨u, rfl, hu⟩ := hH
        exact .short hu hT (by omega) (by omega)
      · simp at h1
  · simp at h

/-! ## base64 -/

theorem symbol_alphabet : ∀ n : Nat, n < 64 → alphabet64.getD n 0 = symbol n := by decide +kernel

theorem encode64_text : ∀ d : List UInt8, encode64 d = base64Text d
  | [] => rfl
  | [a] => by
    have ha := a.toNat_lt
    have e : ascii "==" = [61, 61] := by decide
    simp only [encode64, base64Text, chars64, List.map_cons, List.take_succ_cons, List.take_zero, e, List.cons_append, List.nil_append]
    rw [symbol_alphabet _ (by omega), symbol_alphabet _ (by omega)]
    rw [show 65536 * a.toNat / 262144 % 64 = a.toNat / 4 by omega, show 65536 * a.toNat / 4096 % 64 = a.toNat % 4 * 16 by omega]
  | [a, b] => by
    have ha := a.toNat_lt; have hb := b.toNat_lt
    have e : ascii "=" = [61] := by decide
    simp only [encode64, base64Text, chars64, List.map_cons, List.take_succ_cons, List.take_zero, e, List.cons_append, List.nil_append]
    rw [symbol_alphabet _ (by omega), symbol_alphabet _ (by omega), symbol_alphabet _ (by omega)]
    rw [show (65536 * a.toNat + 256 * b.toNat) / 262144 % 64 = a.toNat / 4 by omega,
      show (65536 * a.toNat + 256 * b.toNat) / 4096 % 64 = a.toNat % 4 * 16 + b.toNat / 16 by omega,
      show (65536 * a.toNat + 256 * b.toNat) / 64 % 64 = b.toNat % 16 * 4 by omega]
  | a :: b :: c :: t => by
    have ha := a.toNat_lt; have hb := b.toNat_lt; have hc := c.toNat_lt
    simp only [encode64, base64Text, chars64, List.map_cons, List.map_nil]
    rw [symbol_alphabet _ (by omega), symbol_alphabet _ (by omega), symbol_alphabet _ (by omega), symbol_alphabet _ (by omega)]
    rw [show (65536 * a.toNat + 256 * b.toNat + c.toNat) / 262144 % 64 = a.toNat / 4 by omega,
      show (65536 * a.toNat + 256 * b.toNat + c.toNat) / 4096 % 64 = a.toNat % 4 * 16 + b.toNat / 16 by omega,
      show (65536 * a.toNat + 256 * b.toNat + c.toNat) / 64 % 64 = b.toNat % 16 * 4 + c.toNat / 64 by omega,
      show (65536 * a.toNat + 256 * b.toNat + c.toNat) % 64 = c.toNat % 64 by omega, encode64_text t]

theorem value_inv {c : UInt8} {x : Nat} (h : value c = some x) : x < 64 ∧ c = symbol x := by
  have : ∀ c : UInt8, (match value c with | none => true | some x => decide (x < 64 ∧ c = symbol x)) = true := by
    apply forall_u8'; decide +kernel
  have := this c
  rw [h] at this
  simpa using this

theorem ofNat_toNat {n : Nat} (h : n < 256) : (UInt8.ofNat n).toNat = n := by simp; omega

theorem decodeLast_inv {s d : List UInt8} (h : decodeLast s = some d) : ∃ q, encode64 d = s ++ q ∧ ∀ c ∈ q, c = 61 := by
  have hs : s = s.takeWhile (· != 61) ++ s.dropWhile (· != 61) := by rw [List.takeWhile_append_dropWhile]
  unfold decodeLast at h
  generalize s.takeWhile (· != 61) = u at h hs
  generalize s.dropWhile (· != 61) = p at h hs
  have m2 : ∀ {α β : Type} {f : α → β} {l : List α} {x y : β}, l.map f = [x, y] → ∃ a b, l = [a, b] ∧ f a = x ∧ f b = y := by
    intro α β f l x y h
    match l, h with
    | [a, b], h => simp at h; exact ⟨a, b, rfl, h.1, h.2⟩
  have m3 : ∀ {α β : Type} {f : α → β} {l : List α} {x y z : β}, l.map f = [x, y, z] → ∃ a b c, l = [a, b, c] ∧ f a = x ∧ f b = y ∧ f c = z := by
    intro α β f l x y z h
    match l, h with
    | [a, b, c], h => simp at h; exact ⟨a, b, c, rfl, h.1, h.2.1, h.2.2⟩
  have m4 : ∀ {α β : Type} {f : α → β} {l : List α} {x y z w : β}, l.map f = [x, y, z, w] → ∃ a b c d, l = [a, b, c, d] ∧ f a = x ∧ f b = y ∧ f c = z ∧ f d = w := by
    intro α β f l x y z w h
    match l, h with
    | [a, b, c, d], h => simp at h; exact ⟨a, b, c, d, rfl, h.1, h.2.1, h.2.2.1, h.2.2.2⟩
  split at h
  · rename_i x y hu
    obtain ⟨a, b, rfl, ha, hb⟩ := m2 hu
    obtain ⟨hx, rfl⟩ := value_inv ha
    obtain ⟨hy, rfl⟩ := value_inv hb
    split at h
    · rename_i hc
      simp only [Option.some.injEq] at h; subst h
      have e : encode64 [UInt8.ofNat (4 * x + y / 16)] = [symbol x, symbol y, 61, 61] := by
        rw [encode64, ofNat_toNat (by omega), show (4 * x + y / 16) / 4 = x by omega, show (4 * x + y / 16) % 4 * 16 = y by omega]
      rw [e, hs]
      rcases hc.1 with rfl | rfl | rfl
      · exact ⟨[61, 61], rfl, by simp⟩
      · exact ⟨[61], rfl, by simp⟩
      · exact ⟨[], rfl, by simp⟩
    · simp at h
  · rename_i x y z hu
    obtain ⟨a, b, c, rfl, ha, hb, hc'⟩ := m3 hu
    obtain ⟨hx, rfl⟩ := value_inv ha
    obtain ⟨hy, rfl⟩ := value_inv hb
    obtain ⟨hz, rfl⟩ := value_inv hc'
    split at h
    · rename_i hc
      simp only [Option.some.injEq] at h; subst h
      have e : encode64 [UInt8.ofNat (4 * x + y / 16), UInt8.ofNat (y % 16 * 16 + z / 4)] = [symbol x, symbol y, symbol z, 61] := by
        rw [encode64, ofNat_toNat (by omega), ofNat_toNat (by omega), show (4 * x + y / 16) / 4 = x by omega,
          show (4 * x + y / 16) % 4 * 16 + (y % 16 * 16 + z / 4) / 16 = y by omega, show (y % 16 * 16 + z / 4) % 16 * 4 = z by omega]
      rw [e, hs]
      rcases hc.1 with rfl | rfl
      · exact ⟨[61], rfl, by simp⟩
      · exact ⟨[], rfl, by simp⟩
    · simp at h
  · rename_i x y z w hu
    obtain ⟨a, b, c, d', rfl, ha, hb, hc, hd⟩ := m4 hu
    obtain ⟨hx, rfl⟩ := value_inv ha
    obtain ⟨hy, rfl⟩ := value_inv hb
    obtain ⟨hz, rfl⟩ := value_inv hc
    obtain ⟨hw, rfl⟩ := value_inv hd
    simp only [Option.some.injEq] at h; subst h
    refine ⟨[], ?_, by simp⟩
    rw [encode64, ofNat_toNat (by omega), ofNat_toNat (by omega), ofNat_toNat (by omega), show (4 * x + y / 16) / 4 = x by omega,
      show (4 * x + y / 16) % 4 * 16 + (y % 16 * 16 + z / 4) / 16 = y by omega,
      show (y % 16 * 16 + z / 4) % 16 * 4 + (z % 4 * 64 + w) / 64 = z by omega, show (z % 4 * 64 + w) % 64 = w by omega, hs]
    rfl
  · simp at h

theorem decode64_inv : ∀ (k : Nat) (s d : List UInt8), s.length ≤ k → decode64 s = some d → ∃ q, encode64 d = s ++ q ∧ ∀ c ∈ q, c = 61 := by
  intro k
  induction k with
  | zero =>
    intro s d hk h
    have : s = [] := List.length_eq_zero_iff.1 (by omega)
    subst this
    simp [decode64] at h; subst h; exact ⟨[], rfl, by simp⟩
  | succ k ih =>
    intro s d hk h
    match s, h with
    | [], h => simp [decode64] at h; subst h; exact ⟨[], rfl, by simp⟩
    | [a], h => exact decodeLast_inv h
    | [a, b], h => exact decodeLast_inv h
    | [a, b, c], h => exact decodeLast_inv h
    | [a, b, c, e], h => exact decodeLast_inv h
    | a :: b :: c :: e :: g :: t, h =>
      rw [decode64] at h
      split at h
      · rename_i x y z w r ha hb hc hd hr
        simp only [Option.some.injEq] at h; subst h
        obtain ⟨hx, rfl⟩ := value_inv ha
        obtain ⟨hy, rfl⟩ := value_inv hb
        obtain ⟨hz, rfl⟩ := value_inv hc
        obtain ⟨hw, rfl⟩ := value_inv hd
        obtain ⟨q, h1, h2⟩ := ih (g :: t) r (by simp at hk ⊢; omega) hr
        refine ⟨q, ?_, h2⟩
        rw [encode64, ofNat_toNat (by omega), ofNat_toNat (by omega), ofNat_toNat (by omega), show (4 * x + y / 16) / 4 = x by omega,
          show (4 * x + y / 16) % 4 * 16 + (y % 16 * 16 + z / 4) / 16 = y by omega,
          show (y % 16 * 16 + z / 4) % 16 * 4 + (z % 4 * 64 + w) / 64 = z by omega, show (z % 4 * 64 + w) % 64 = w by omega, h1]
        rfl
      · simp at h

end R53.StdText
