import Verif.Model.Std
import Verif.Spec.Text
import Verif.Proofs.Text4
/-!
# The texts of addresses and base64 read back
-/
namespace R53.StdText

/-! ## Numbers -/

/-- the number a text of digits denotes -/
def numeral (radix : Nat) (s : List UInt8) (acc : Nat) : Nat := s.foldl (fun a c => a * radix + (digit radix c).getD 0) acc

def Stops (radix : Nat) (s : List UInt8) : Prop := ∀ c, s.head? = some c → digit radix c = none

theorem readDigits_all {radix max : Nat} : ∀ (s rest : List UInt8) (count acc : Nat), (∀ c ∈ s, digit radix c ≠ none) → count + s.length ≤ max →
    Stops radix rest → readDigits radix max (s ++ rest) count acc = some (count + s.length, numeral radix s acc, rest) := by
  intro s
  induction s with
  | nil =>
    intro rest count acc _ _ hr
    cases rest with
    | nil => rfl
    | cons c t =>
      show (match digit radix c with | none => _ | some d => _) = _
      rw [hr c rfl]; rfl
  | cons c s ih =>
    intro rest count acc hs hl hr
    simp only [List.length_cons] at hl
    cases hd : digit radix c with
    | none => exact absurd hd (hs c (by simp))
    | some d =>
      show (match digit radix c with | none => _ | some d => _) = _
      rw [hd]
      show (if count + 1 > max then none else _) = _
      rw [if_neg (by omega)]
      have := ih rest (count + 1) (acc * radix + d) (fun x hx => hs x (by simp [hx])) (by omega) hr
      show readDigits radix max (s ++ rest) (count + 1) (acc * radix + d) = _
      rw [this]
      have e1 : count + 1 + s.length = count + (c :: s).length := by simp; omega
      have e2 : numeral radix s (acc * radix + d) = numeral radix (c :: s) acc := by simp [numeral, hd]
      rw [e1, e2]

theorem readNumber_all {radix max top : Nat} {zeros : Bool} {s rest : List UInt8} (hne : s ≠ []) (hs : ∀ c ∈ s, digit radix c ≠ none)
    (hl : s.length ≤ max) (hr : Stops radix rest) (hz : zeros = true ∨ s.head? ≠ some 48 ∨ s.length = 1) (ht : numeral radix s 0 ≤ top) :
    readNumber radix max top zeros (s ++ rest) = some (numeral radix s 0, rest) := by
  unfold readNumber
  rw [readDigits_all s rest 0 0 hs (by omega) hr]
  have h0 : 0 < s.length := List.length_pos_iff.mpr hne
  have hh : (s ++ rest).head? = s.head? := by
    cases s with
    | nil => exact absurd rfl hne
    | cons => rfl
  simp only [hh]
  rw [if_neg (by omega), if_neg ?_, if_neg (by omega)]
  intro h
  rcases hz with rfl | h' | h'
  · simp at h
  · simp at h; exact h' h.1.2
  · simp at h; omega

theorem digit_dec : ∀ d : Nat, d < 10 → digit 10 (UInt8.ofNat (48 + d)) = some d ∧ UInt8.ofNat (48 + d) ≠ 46 ∧ UInt8.ofNat (48 + d) ≠ 58 := by decide +kernel
theorem dec_zero : ∀ d : Nat, d < 10 → UInt8.ofNat (48 + d) = 48 → d = 0 := by decide +kernel

structure Num (radix n : Nat) (s : List UInt8) : Prop where
  ne : s ≠ []
  digits : ∀ c ∈ s, digit radix c ≠ none
  val : numeral radix s 0 = n

theorem numeral_append (radix : Nat) (s t : List UInt8) (acc : Nat) : numeral radix (s ++ t) acc = numeral radix t (numeral radix s acc) := by
  simp [numeral]

theorem num_one {radix d : Nat} {c : UInt8} (h : digit radix c = some d) (acc : Nat) : numeral radix [c] acc = acc * radix + d := by
  show acc * radix + (digit radix c).getD 0 = _
  rw [h]; rfl

theorem num_single {radix d : Nat} {c : UInt8} (h : digit radix c = some d) : Num radix d [c] :=
  ⟨by simp, by intro x hx; rw [List.mem_singleton] at hx; subst hx; rw [h]; simp, by rw [num_one h]; omega⟩

theorem num_snoc {radix n d : Nat} {s : List UInt8} {c : UInt8} (hs : Num radix n s) (h : digit radix c = some d) : Num radix (n * radix + d) (s ++ [c]) := by
  refine ⟨by simp, ?_, by rw [numeral_append, hs.val, num_one h]⟩
  intro x hx
  rcases List.mem_append.mp hx with h' | h'
  · exact hs.digits x h'
  · rw [List.mem_singleton] at h'; subst h'; rw [h]; simp

theorem decimal_num (n : Nat) : Num 10 n (decimal n) := by
  induction n using Nat.strongRecOn with
  | _ n ih =>
    rw [decimal]
    split
    · rename_i h
      exact num_single (digit_dec n h).1
    · have h := num_snoc (ih (n / 10) (by omega)) (digit_dec (n % 10) (by omega)).1
      rwa [show n / 10 * 10 + n % 10 = n by omega] at h

theorem decimal_len (n : Nat) (h : n < 1000) : (decimal n).length ≤ 3 := by
  rw [decimal]; split
  · simp
  · rw [decimal]; split
    · simp
    · rw [decimal]; rw [if_pos (by omega)]; simp

theorem decimal_head (n : Nat) : (decimal n).head? = some 48 → n = 0 := by
  induction n using Nat.strongRecOn with
  | _ n ih =>
    rw [decimal]
    split
    · rename_i h
      intro h'; exact dec_zero n h (Option.some.inj h')
    · intro h'
      have hne := (decimal_num (n / 10)).ne
      have : (decimal (n / 10)).head? = some 48 := by
        cases e : decimal (n / 10) with
        | nil => exact absurd e hne
        | cons c t => rw [e] at h'; simpa using h'
      have := ih (n / 10) (by omega) this
      omega

theorem readByte {n : Nat} (hn : n < 256) {rest : List UInt8} (hr : Stops 10 rest) :
    readNumber 10 3 255 false (decimal n ++ rest) = some (n, rest) := by
  have h := decimal_num n
  have := readNumber_all (max := 3) (top := 255) (zeros := false) h.ne h.digits (decimal_len n (by omega)) hr ?_ (by rw [h.val]; omega)
  · rw [this, h.val]
  · right
    by_cases e : (decimal n).head? = some 48
    · have := decimal_head n e; subst this
      right; rw [decimal, if_pos (by omega)]; rfl
    · exact .inl e

theorem stops_dot (t : List UInt8) : Stops 10 (46 :: t) := by intro c h; simp at h; subst h; decide

/-! ## IPv4 -/

theorem readV4_rest : ∀ (t : List UInt8) (i : Nat) (rest : List UInt8), Stops 10 rest →
    readV4 t.length (i + 1) ((t.flatMap fun b => 46 :: decimal b.toNat) ++ rest) = some (t.map (·.toNat), rest) := by
  intro t
  induction t with
  | nil => intro i rest _; rfl
  | cons b t ih =>
    intro i rest hr
    have hs : Stops 10 ((t.flatMap fun b => 46 :: decimal b.toNat) ++ rest) := by
      cases t with
      | nil => exact hr
      | cons c t => intro x hx; simp at hx; subst hx; decide
    simp only [List.flatMap_cons, List.cons_append, List.append_assoc, List.length_cons, readV4, readSep]
    rw [if_neg (by omega)]
    simp only [if_true]
    rw [readByte b.toNat_lt hs]
    simp only
    rw [ih (i + 1) rest hr]
    rfl

theorem readV4_show {o rest : List UInt8} (ho : o.length = 4) (hr : Stops 10 rest) : readV4 4 0 (showV4 o ++ rest) = some (o.map (·.toNat), rest) := by
  cases o with
  | nil => simp at ho
  | cons a t =>
    simp only [List.length_cons] at ho
    have hl : t.length = 3 := by omega
    have hs : Stops 10 ((t.flatMap fun b => 46 :: decimal b.toNat) ++ rest) := by
      cases t with
      | nil => exact hr
      | cons c t => intro x hx; simp at hx; subst hx; decide
    simp only [showV4, List.append_assoc]
    show readV4 (3 + 1) 0 _ = _
    rw [readV4]
    simp only [readSep, if_true]
    rw [readByte a.toNat_lt hs]
    have := readV4_rest t 0 rest hr
    rw [hl] at this
    simp only
    rw [this]; rfl

theorem map_ofNat_toNat (o : List UInt8) : (o.map (·.toNat)).map UInt8.ofNat = o := by
  induction o with
  | nil => rfl
  | cons a t ih => simp only [List.map_cons, ih]; congr 1; simp

theorem showV4_length {o : List UInt8} (ho : o.length = 4) : (showV4 o).length ≤ 15 := by
  match o, ho with
  | [a, b, c, d], _ =>
    have := decimal_len a.toNat (by have := a.toNat_lt; omega)
    have := decimal_len b.toNat (by have := b.toNat_lt; omega)
    have := decimal_len c.toNat (by have := c.toNat_lt; omega)
    have := decimal_len d.toNat (by have := d.toNat_lt; omega)
    simp [showV4]; omega

theorem parseV4_show {o : List UInt8} (ho : o.length = 4) : parseV4 (showV4 o) = some o := by
  unfold parseV4
  rw [if_neg (by have := showV4_length ho; omega)]
  have := readV4_show (rest := []) ho (by intro c h; simp at h)
  rw [List.append_nil] at this
  rw [this]
  simp only [map_ofNat_toNat]

theorem showV4_word {o : List UInt8} (ho : o ≠ []) : Word (showV4 o) := by
  cases o with
  | nil => exact absurd rfl ho
  | cons a t =>
    refine ⟨by simp [showV4, (decimal_num _).ne], ?_⟩
    intro c hc
    simp only [showV4, List.mem_append, List.mem_flatMap, List.mem_cons] at hc
    rcases hc with h | ⟨b, -, h | h⟩
    · exact (decimal_word _).2 c h
    · subst h; decide
    · exact (decimal_word _).2 c h

theorem readV4_length : ∀ (left i : Nat) (s : List UInt8) (vs : List Nat) (t : List UInt8), readV4 left i s = some (vs, t) → vs.length = left := by
  intro left
  induction left with
  | zero => intro i s vs t h; simp [readV4] at h; simp [h.1]
  | succ left ih =>
    intro i s vs t h
    rw [readV4] at h
    split at h
    · simp at h
    · split at h
      · simp at h
      · rename_i h1
        simp at h
        rw [← h.1, List.length_cons, ih _ _ _ _ h1]

theorem parseV4_length {s o : List UInt8} (h : parseV4 s = some o) : o.length = 4 := by
  unfold parseV4 at h
  split at h
  · simp at h
  · split at h
    · rename_i h1
      simp at h; rw [← h, List.length_map, readV4_length _ _ _ _ _ h1]
    · simp at h

/-! ### exactly the dotted quads -/

theorem digit10_char : ∀ c : UInt8, ∀ d, digit 10 c = some d → d < 10 ∧ c = UInt8.ofNat (48 + d) := by
  have : ∀ c : UInt8, (match digit 10 c with | none => true | some d => decide (d < 10 ∧ c = UInt8.ofNat (48 + d))) = true := by
    apply forall_u8'; decide +kernel
  intro c d h
  have := this c
  rw [h] at this
  simpa using this

/-- what `readDigits` takes in is the shortest decimal text, once the first digit is not zero -/
theorem readDigits_dec {max : Nat} : ∀ (s : List UInt8) (count acc : Nat) (n v : Nat) (rest : List UInt8), 0 < acc →
    readDigits 10 max s count acc = some (n, v, rest) → decimal acc ++ s = decimal v ++ rest ∧ acc ≤ v := by
  intro s
  induction s with
  | nil => intro count acc n v rest _ h; simp [readDigits] at h; obtain ⟨-, rfl, rfl⟩ := h; exact ⟨rfl, Nat.le_refl _⟩
  | cons c s ih =>
    intro count acc n v rest ha h
    rw [readDigits] at h
    split at h
    · simp at h; obtain ⟨-, rfl, rfl⟩ := h; exact ⟨rfl, Nat.le_refl _⟩
    · rename_i d hd
      split at h
      · simp at h
      · obtain ⟨h1, h2⟩ := digit10_char c d hd
        have := ih (count + 1) (acc * 10 + d) n v rest (by omega) h
        refine ⟨?_, by omega⟩
        rw [← this.1]
        have e : decimal (acc * 10 + d) = decimal acc ++ [UInt8.ofNat (48 + d)] := by
          rw [decimal, if_neg (by omega), show (acc * 10 + d) / 10 = acc by omega, show (acc * 10 + d) % 10 = d by omega]
        rw [e, h2, List.append_assoc]; rfl

theorem readByte_inv {s rest : List UInt8} {v : Nat} (h : readNumber 10 3 255 false s = some (v, rest)) : v < 256 ∧ s = decimal v ++ rest := by
  unfold readNumber at h
  split at h
  · simp at h
  · rename_i count w rest' h1
    split at h
    · simp at h
    rename_i hc
    split at h
    · simp at h
    rename_i hz
    split at h
    · simp at h
    rename_i ht
    simp at h; obtain ⟨rfl, rfl⟩ := h
    refine ⟨by omega, ?_⟩
    cases s with
    | nil => simp [readDigits] at h1; omega
    | cons c s =>
      rw [readDigits] at h1
      split at h1
      · simp at h1; omega
      · rename_i d hd
        rw [if_neg (by omega)] at h1
        obtain ⟨h2, h3⟩ := digit10_char c d hd
        by_cases h0 : d = 0
        · subst h0
          have hc0 : c = 48 := h3
          subst hc0
          -- a zero is the only digit
          have : count = 1 := by
            have : ¬ count > 1 := by intro hh; simp [hh] at hz
            omega
          subst this
          cases s with
          | nil => simp [readDigits] at h1; obtain ⟨rfl, rfl⟩ := h1; rw [decimal, if_pos (by omega)]; rfl
          | cons e s =>
            rw [readDigits] at h1
            split at h1
            · simp at h1; obtain ⟨rfl, rfl⟩ := h1; rw [decimal, if_pos (by omega)]; rfl
            · exfalso
              split at h1
              · simp at h1
              · -- the count only grows
                have : ∀ (s : List UInt8) (count acc n v : Nat) (r : List UInt8), readDigits 10 3 s count acc = some (n, v, r) → count ≤ n := by
                  intro s
                  induction s with
                  | nil => intro count acc n v r h; simp [readDigits] at h; omega
                  | cons c s ih =>
                    intro count acc n v r h
                    rw [readDigits] at h
                    split at h
                    · simp at h; omega
                    · split at h
                      · simp at h
                      · have := ih _ _ _ _ _ h; omega
                have := this _ _ _ _ _ _ h1
                omega
        · have := readDigits_dec s 1 (0 * 10 + d) count w rest' (by omega) h1
          rw [← this.1, decimal, if_pos (by omega), h3]
          simp

theorem readV4_inv : ∀ (left i : Nat) (s : List UInt8) (vs : List Nat) (t : List UInt8), readV4 left (i + 1) s = some (vs, t) →
    (∀ v ∈ vs, v < 256) ∧ s = (vs.flatMap fun v => 46 :: decimal v) ++ t := by
  intro left
  induction left with
  | zero => intro i s vs t h; simp [readV4] at h; simp [h.1, h.2]
  | succ left ih =>
    intro i s vs t h
    rw [readV4] at h
    split at h
    · simp at h
    · rename_i v u h1
      split at h
      · simp at h
      · rename_i ws w h2
        simp at h; obtain ⟨rfl, rfl⟩ := h
        unfold readSep at h1
        rw [if_neg (by omega)] at h1
        split at h1
        · rename_i c r
          split at h1
          · rename_i hc
            subst hc
            obtain ⟨k1, k2⟩ := readByte_inv h1
            obtain ⟨k3, k4⟩ := ih _ _ _ _ h2
            refine ⟨by intro x hx; rcases List.mem_cons.mp hx with rfl | hx; exact k1; exact k3 x hx, ?_⟩
            rw [k2, k4]; simp
          · simp at h1
        · simp at h1

theorem parseV4_inv {s o : List UInt8} (h : parseV4 s = some o) : s = showV4 o := by
  unfold parseV4 at h
  split at h
  · simp at h
  split at h
  · rename_i vs h1
    simp at h; subst h
    change readV4 (3 + 1) 0 s = _ at h1
    rw [readV4] at h1
    split at h1
    · simp at h1
    · rename_i v u h2
      split at h1
      · simp at h1
      · rename_i ws w h3
        simp at h1; obtain ⟨rfl, rfl⟩ := h1
        unfold readSep at h2
        rw [if_pos rfl] at h2
        obtain ⟨k1, k2⟩ := readByte_inv h2
        obtain ⟨k3, k4⟩ := readV4_inv _ _ _ _ _ h3
        have e : ∀ x : Nat, x < 256 → (UInt8.ofNat x).toNat = x := by intro x hx; simp; omega
        have e2 : ∀ l : List Nat, (∀ v ∈ l, v < 256) → (l.flatMap fun v => 46 :: decimal v) = (l.map UInt8.ofNat).flatMap fun b => 46 :: decimal b.toNat := by
          intro l
          induction l with
          | nil => intro _; rfl
          | cons x l ih => intro hl; simp only [List.flatMap_cons, List.map_cons, e x (hl x (by simp)), ih (fun y hy => hl y (by simp [hy]))]
        rw [k2, k4, List.append_nil, List.map_cons, showV4, e v k1, e2 ws k3]
  · simp at h

/-! ## IPv6 -/

def hexChar (d : Nat) : UInt8 := if d < 10 then UInt8.ofNat (48 + d) else UInt8.ofNat (87 + d)

theorem hexChar_facts : ∀ d : Nat, d < 16 → digit 16 (hexChar d) = some d ∧ hexChar d ≠ 46 ∧ 33 ≤ hexChar d ∧ hexChar d < 127 := by decide +kernel

theorem hexNum_eq (n : Nat) : hexNum n = if n < 16 then [hexChar n] else hexNum (n / 16) ++ [hexChar (n % 16)] := by
  rw [hexNum]; rfl

theorem hexNum_num (n : Nat) : Num 16 n (hexNum n) := by
  induction n using Nat.strongRecOn with
  | _ n ih =>
    rw [hexNum_eq]
    split
    · rename_i h
      exact num_single (hexChar_facts n h).1
    · have h := num_snoc (ih (n / 16) (by omega)) (hexChar_facts (n % 16) (by omega)).1
      rwa [show n / 16 * 16 + n % 16 = n by omega] at h

theorem hexNum_chars (n : Nat) : ∀ c ∈ hexNum n, c ≠ 46 ∧ 33 ≤ c ∧ c < 127 := by
  induction n using Nat.strongRecOn with
  | _ n ih =>
    rw [hexNum_eq]
    intro c hc
    split at hc
    · rename_i h
      rw [List.mem_singleton] at hc; subst hc; exact (hexChar_facts n h).2
    · rcases List.mem_append.mp hc with h' | h'
      · exact ih _ (by omega) c h'
      · rw [List.mem_singleton] at h'; subst h'; exact (hexChar_facts _ (by omega)).2

theorem hexNum_len (n : Nat) (h : n < 65536) : (hexNum n).length ≤ 4 := by
  rw [hexNum_eq]; split
  · simp
  · rw [hexNum_eq]; split
    · simp
    · rw [hexNum_eq]; split
      · simp
      · rw [hexNum_eq, if_pos (by omega)]; simp

theorem readGroup {n : Nat} (hn : n < 65536) {rest : List UInt8} (hr : Stops 16 rest) :
    readNumber 16 4 65535 true (hexNum n ++ rest) = some (n, rest) := by
  have h := hexNum_num n
  have := readNumber_all (max := 4) (top := 65535) (zeros := true) h.ne h.digits (hexNum_len n hn) hr (.inl rfl) (by rw [h.val]; omega)
  rw [this, h.val]

/-- behind the digits of a group there is no dot, so no IPv4 address -/
theorem readDigits_no_dot : ∀ (s rest : List UInt8) (count acc : Nat), (∀ c ∈ s, c ≠ 46) → Stops 10 rest → rest.head? ≠ some 46 →
    ∀ n v t, readDigits 10 3 (s ++ rest) count acc = some (n, v, t) → t.head? ≠ some 46 := by
  intro s
  induction s with
  | nil =>
    intro rest count acc _ hr hd n v t h
    cases rest with
    | nil => simp [readDigits] at h; obtain ⟨-, -, rfl⟩ := h; simp
    | cons c r =>
      rw [List.nil_append, readDigits, hr c rfl] at h
      simp at h; obtain ⟨-, -, rfl⟩ := h; exact hd
  | cons c s ih =>
    intro rest count acc hs hr hd n v t h
    rw [List.cons_append, readDigits] at h
    split at h
    · simp at h; obtain ⟨-, -, rfl⟩ := h; simpa using hs c (by simp)
    · split at h
      · simp at h
      · exact ih rest _ _ (fun x hx => hs x (by simp [hx])) hr hd n v t h

theorem stops_16_10 {s : List UInt8} (h : Stops 16 s) : Stops 10 s := by
  have key : ∀ c : UInt8, digit 16 c = none → digit 10 c = none := by apply forall_u8'; decide +kernel
  intro c hc; exact key c (h c hc)

theorem readV4_group {n : Nat} {rest : List UInt8} (hr : Stops 16 rest) (hd : rest.head? ≠ some 46) : readV4 4 0 (hexNum n ++ rest) = none := by
  show readV4 (3 + 1) 0 _ = none
  rw [readV4]
  simp only [readSep, if_true]
  cases h : readNumber 10 3 255 false (hexNum n ++ rest) with
  | none => rfl
  | some p =>
    obtain ⟨v, t⟩ := p
    have ht : t.head? ≠ some 46 := by
      unfold readNumber at h
      split at h
      · simp at h
      · rename_i c w u h1
        split at h
        · simp at h
        split at h
        · simp at h
        split at h
        · simp at h
        simp at h; obtain ⟨rfl, rfl⟩ := h
        exact readDigits_no_dot _ _ _ _ (fun c hc => (hexNum_chars n c hc).1) (stops_16_10 hr) hd _ _ _ h1
    simp only
    show (match readV4 (2 + 1) 1 t with | none => none | some (vs, u) => some (v :: vs, u)) = none
    rw [readV4]
    have : readSep 46 1 (readNumber 10 3 255 false) t = none := by
      unfold readSep
      rw [if_neg (by omega)]
      cases t with
      | nil => rfl
      | cons c t =>
        simp only
        rw [if_neg]
        intro e; subst e; exact ht rfl
    rw [this]

theorem stops_colon (t : List UInt8) : Stops 16 (58 :: t) := by intro c h; simp at h; subst h; decide

def laterGroups (gs : List Nat) : List UInt8 := gs.flatMap fun h => 58 :: hexNum h

theorem showGroups_cons (g : Nat) (gs : List Nat) : showGroups (g :: gs) = hexNum g ++ laterGroups gs := rfl

theorem later_stops {gs : List Nat} {rest : List UInt8} (hr : Stops 16 rest) (hd : rest.head? ≠ some 46) :
    Stops 16 (laterGroups gs ++ rest) ∧ (laterGroups gs ++ rest).head? ≠ some 46 := by
  cases gs with
  | nil => exact ⟨hr, hd⟩
  | cons g gs => exact ⟨stops_colon _, by simp [laterGroups]⟩

theorem readGroups_later : ∀ (gs : List Nat) (left i : Nat) (rest : List UInt8), (∀ g ∈ gs, g < 65536) → gs.length ≤ left → Stops 16 rest →
    rest.head? ≠ some 46 →
    readGroups left (i + 1) (laterGroups gs ++ rest) =
      (gs ++ (readGroups (left - gs.length) (i + 1 + gs.length) rest).1, (readGroups (left - gs.length) (i + 1 + gs.length) rest).2) := by
  intro gs
  induction gs with
  | nil => intro left i rest _ _ _ _; rfl
  | cons g gs ih =>
    intro left i rest hg hl hr hd
    simp only [List.length_cons] at hl
    obtain ⟨left, rfl⟩ : ∃ k, left = k + 1 := ⟨left - 1, by omega⟩
    obtain ⟨s1, s2⟩ := later_stops (gs := gs) hr hd
    have e : laterGroups (g :: gs) ++ rest = 58 :: (hexNum g ++ (laterGroups gs ++ rest)) := by simp [laterGroups]
    rw [e, readGroups]
    have v4 : (if left = 0 then none else readSep 58 (i + 1) (readV4 4 0) (58 :: (hexNum g ++ (laterGroups gs ++ rest)))) = none := by
      split
      · rfl
      · unfold readSep; rw [if_neg (by omega)]; simp only [if_true]; exact readV4_group s1 s2
    have v6 : readSep 58 (i + 1) (readNumber 16 4 65535 true) (58 :: (hexNum g ++ (laterGroups gs ++ rest))) = some (g, laterGroups gs ++ rest) := by
      unfold readSep; rw [if_neg (by omega)]; simp only [if_true]; exact readGroup (hg g (by simp)) s1
    simp only [v4, v6]
    rw [ih left (i + 1) rest (fun x hx => hg x (by simp [hx])) (by omega) hr hd]
    simp only [List.length_cons, show left + 1 - (gs.length + 1) = left - gs.length by omega, show i + 1 + (gs.length + 1) = i + 1 + 1 + gs.length by omega]
    rfl

theorem readGroups_show {gs : List Nat} {left : Nat} {rest : List UInt8} (hg : ∀ g ∈ gs, g < 65536) (hl : gs.length ≤ left) (hr : Stops 16 rest)
    (hd : rest.head? ≠ some 46) :
    readGroups left 0 (showGroups gs ++ rest) = (gs ++ (readGroups (left - gs.length) gs.length rest).1, (readGroups (left - gs.length) gs.length rest).2) := by
  cases gs with
  | nil => rfl
  | cons g gs =>
    simp only [List.length_cons] at hl
    obtain ⟨left, rfl⟩ : ∃ k, left = k + 1 := ⟨left - 1, by omega⟩
    obtain ⟨s1, s2⟩ := later_stops (gs := gs) hr hd
    rw [showGroups_cons, List.append_assoc, readGroups]
    have v4 : (if left = 0 then none else readSep 58 0 (readV4 4 0) (hexNum g ++ (laterGroups gs ++ rest))) = none := by
      split
      · rfl
      · unfold readSep; rw [if_pos rfl]; exact readV4_group s1 s2
    have v6 : readSep 58 0 (readNumber 16 4 65535 true) (hexNum g ++ (laterGroups gs ++ rest)) = some (g, laterGroups gs ++ rest) := by
      unfold readSep; rw [if_pos rfl]; exact readGroup (hg g (by simp)) s1
    simp only [v4, v6]
    rw [readGroups_later gs left 0 rest (fun x hx => hg x (by simp [hx])) (by omega) hr hd]
    simp only [List.length_cons, show left + 1 - (gs.length + 1) = left - gs.length by omega, show 0 + 1 + gs.length = gs.length + 1 by omega]
    rfl

theorem readGroups_nil (left i : Nat) : readGroups left i [] = ([], false, []) := by
  cases left with
  | zero => rfl
  | succ left =>
    have e : readSep 58 i (readV4 4 0) [] = none := by unfold readSep; split <;> rfl
    have e2 : readSep 58 i (readNumber 16 4 65535 true) [] = none := by unfold readSep; split <;> rfl
    rw [readGroups]
    simp only [e, e2, ite_self]

theorem readGroups_colons (left i : Nat) (t : List UInt8) : readGroups left i (58 :: 58 :: t) = ([], false, 58 :: 58 :: t) := by
  cases left with
  | zero => rfl
  | succ left =>
    have k1 : ∀ u : List UInt8, readNumber 16 4 65535 true (58 :: u) = none := by
      intro u; unfold readNumber; rw [readDigits, show digit 16 58 = none by decide]; rfl
    have k2 : ∀ u : List UInt8, readV4 4 0 (58 :: u) = none := by
      intro u
      have : readNumber 10 3 255 false (58 :: u) = none := by
        unfold readNumber; rw [readDigits, show digit 10 58 = none by decide]; rfl
      show readV4 (3 + 1) 0 _ = none
      rw [readV4]; simp only [readSep, if_true, this]
    have e : readSep 58 i (readV4 4 0) (58 :: 58 :: t) = none := by
      unfold readSep; split
      · exact k2 _
      · simp only [if_true]; exact k2 _
    have e2 : readSep 58 i (readNumber 16 4 65535 true) (58 :: 58 :: t) = none := by
      unfold readSep; split
      · exact k1 _
      · simp only [if_true]; exact k1 _
    rw [readGroups]
    simp only [e, e2, ite_self]

/-- what `zeroSpan` gives is a run of zeros -/
theorem zeroSpan_run : ∀ (gs pre : List Nat) (current longest : Nat × Nat),
    (current.2 ≠ 0 → ∃ p, pre = p ++ List.replicate current.2 0 ∧ current.1 = p.length) →
    (∃ p q, pre = p ++ List.replicate longest.2 0 ++ q ∧ (longest.2 ≠ 0 → longest.1 = p.length)) →
    ∃ p q, pre ++ gs = p ++ List.replicate (zeroSpan gs pre.length current longest).2 0 ++ q ∧
      ((zeroSpan gs pre.length current longest).2 ≠ 0 → (zeroSpan gs pre.length current longest).1 = p.length) := by
  intro gs
  induction gs with
  | nil => intro pre current longest _ hl; simpa [zeroSpan] using hl
  | cons g gs ih =>
    intro pre current longest hc hl
    rw [zeroSpan]
    have el : pre.length + 1 = (pre ++ [g]).length := by simp
    have ea : pre ++ g :: gs = (pre ++ [g]) ++ gs := by simp
    obtain ⟨p, q, k1, k2⟩ := hl
    have hl' : ∃ p q, pre ++ [g] = p ++ List.replicate longest.2 0 ++ q ∧ (longest.2 ≠ 0 → longest.1 = p.length) :=
      ⟨p, q ++ [g], by rw [k1]; simp, k2⟩
    split
    · rename_i hg
      subst hg
      simp only [el, ea]
      have hc' : ∃ p, pre ++ [0] = p ++ List.replicate (current.2 + 1) 0 ∧ (if current.2 = 0 then pre.length else current.1) = p.length := by
        by_cases h0 : current.2 = 0
        · exact ⟨pre, by simp [h0], by simp [h0]⟩
        · obtain ⟨p, h1, h2⟩ := hc h0
          refine ⟨p, ?_, by rw [if_neg h0, h2]⟩
          rw [h1, List.append_assoc, ← List.replicate_succ']
      rw [← el]
      rw [el]
      apply ih
      · intro _; exact hc'
      · split
        · obtain ⟨p, h1, h2⟩ := hc'
          exact ⟨p, [], by rw [h1]; simp, fun _ => h2⟩
        · exact hl'
    · rw [el, ea]
      apply ih
      · intro h; exact absurd rfl h
      · exact hl'

theorem segments_lt : ∀ (o : List UInt8), ∀ g ∈ segments o, g < 65536
  | [], g, h => by simp [segments] at h
  | [_], g, h => by simp [segments] at h
  | a :: b :: t, g, h => by
    rw [segments] at h
    rcases List.mem_cons.mp h with rfl | h
    · have := a.toNat_lt; have := b.toNat_lt; omega
    · exact segments_lt t g h

theorem segments_length : ∀ (n : Nat) (o : List UInt8), o.length = 2 * n → (segments o).length = n
  | 0, [], _ => rfl
  | n + 1, a :: b :: t, h => by
    rw [segments, List.length_cons, segments_length n t (by simp at h; omega)]
  | 0, _ :: _, h => by simp at h
  | n + 1, [], h => by simp at h
  | n + 1, [_], h => by simp at h; omega

theorem octets_segments : ∀ (n : Nat) (o : List UInt8), o.length = 2 * n → octets (segments o) = o
  | 0, [], _ => rfl
  | n + 1, a :: b :: t, h => by
    have h1 : UInt8.ofNat ((256 * a.toNat + b.toNat) / 256) = a := by
      rw [show (256 * a.toNat + b.toNat) / 256 = a.toNat by have := b.toNat_lt; omega]; simp
    have h2 : UInt8.ofNat ((256 * a.toNat + b.toNat) % 256) = b := by
      rw [show (256 * a.toNat + b.toNat) % 256 = b.toNat by have := b.toNat_lt; omega]; simp
    rw [segments, octets, h1, h2, octets_segments n t (by simp at h; omega)]
  | 0, _ :: _, h => by simp at h
  | n + 1, [], h => by simp at h
  | n + 1, [_], h => by simp at h; omega

theorem octets_length : ∀ vs : List Nat, (octets vs).length = 2 * vs.length
  | [] => rfl
  | v :: vs => by simp [octets, octets_length vs]; omega

theorem parse_groups {gs : List Nat} (hg : ∀ g ∈ gs, g < 65536) (hl : gs.length = 8) : readV6 (showGroups gs) = some (gs, []) := by
  have h := readGroups_show (gs := gs) (left := 8) (rest := []) hg (by omega) (by intro c h; simp at h) (by simp)
  rw [readGroups_nil, List.append_nil] at h
  unfold readV6
  simp only [h]
  rw [if_pos (by simpa using hl)]
  simp

theorem parse_gap {head tail : List Nat} (hh : ∀ g ∈ head, g < 65536) (ht : ∀ g ∈ tail, g < 65536) (hl : head.length + tail.length < 8) :
    readV6 (showGroups head ++ [58, 58] ++ showGroups tail) = some (head ++ List.replicate (8 - head.length - tail.length) 0 ++ tail, []) := by
  have h := readGroups_show (gs := head) (left := 8) (rest := 58 :: 58 :: showGroups tail) hh (by omega) (stops_colon _) (by simp)
  rw [readGroups_colons] at h
  have h2 := readGroups_show (gs := tail) (left := 8 - (head.length + 1)) (rest := []) ht (by omega) (by intro c h; simp at h) (by simp)
  rw [readGroups_nil, List.append_nil] at h2
  have e : showGroups head ++ [58, 58] ++ showGroups tail = showGroups head ++ 58 :: 58 :: showGroups tail := by simp
  rw [e]
  unfold readV6
  simp only [h, List.append_nil]
  rw [if_neg (by omega), if_neg (by simp)]
  simp only [readTail, h2, List.append_nil]

theorem parseV6_show {o : List UInt8} (ho : o.length = 16) : parseV6 (showV6 o) = some o := by
  have hs := octets_segments 8 o (by omega)
  have hlen := segments_length 8 o (by omega)
  have hlt := segments_lt o
  have key : ∀ t, readV6 t = some (segments o, []) → parseV6 t = some o := by
    intro t h; unfold parseV6; rw [h]; simp only [hs]
  apply key
  unfold showV6
  split
  · rename_i h
    have e : o = [0, 0, 0, 0, 0, 0, 0, 0, 0, 0, 255, 255] ++ o.drop 12 := by rw [← h, List.take_append_drop]
    have h4 : (o.drop 12).length = 4 := by simp; omega
    generalize o.drop 12 = q at e h4
    subst e
    match q, h4 with
    | [a, b, c, d], _ =>
      have h1 := readGroups_colons 8 0 ([102, 102, 102, 102, 58] ++ showV4 [a, b, c, d])
      have h2 := readGroups_show (gs := [65535]) (left := 7) (rest := 58 :: showV4 [a, b, c, d]) (by simp) (by simp) (stops_colon _) (by simp)
      have h3 := readV4_show (o := [a, b, c, d]) (rest := []) rfl (by intro c h; simp at h)
      rw [List.append_nil] at h3
      have h5 : readGroups (7 - 1) 1 (58 :: showV4 [a, b, c, d]) = (segments [a, b, c, d], true, []) := by
        show readGroups (5 + 1) 1 _ = _
        rw [readGroups]
        have : readSep 58 1 (readV4 4 0) (58 :: showV4 [a, b, c, d]) = some ([a, b, c, d].map (·.toNat), []) := by
          unfold readSep; rw [if_neg (by omega)]; simp only [if_true]; exact h3
        simp only [this, show ¬ (5 : Nat) = 0 by omega, if_false, map_ofNat_toNat]
      rw [show [65535].length = 1 from rfl, h5] at h2
      have e16 : showGroups [65535] = [102, 102, 102, 102] := by
        simp only [showGroups, List.flatMap_nil, List.append_nil]
        rw [hexNum_eq, if_neg (by omega), hexNum_eq, if_neg (by omega), hexNum_eq, if_neg (by omega), hexNum_eq, if_pos (by omega)]
        decide
      rw [e16] at h2
      show readV6 (58 :: 58 :: ([102, 102, 102, 102, 58] ++ showV4 [a, b, c, d])) = _
      unfold readV6
      simp only [h1]
      rw [if_neg (by simp), if_neg (by simp)]
      simp only [readTail]
      have h2' : readGroups (8 - (([] : List Nat).length + 1)) 0 ([102, 102, 102, 102, 58] ++ showV4 [a, b, c, d]) = ([65535] ++ segments [a, b, c, d], true, []) := h2
      rw [h2']
      simp [segments, List.replicate]
  · dsimp only
    split
    · rename_i hz
      obtain ⟨p, q, k1, k2⟩ := zeroSpan_run (segments o) [] (0, 0) (0, 0) (by simp) ⟨[], [], by simp, by simp⟩
      simp only [List.length_nil, List.nil_append] at k1 k2
      have k3 := k2 (by omega)
      generalize zeroSpan (segments o) 0 (0, 0) (0, 0) = z at hz k1 k2 k3
      have t1 : (segments o).take z.1 = p := by rw [k1, k3, List.append_assoc, List.take_left']; rfl
      have t2 : (segments o).drop (z.1 + z.2) = q := by rw [k1, k3]; rw [List.drop_left']; simp
      rw [t1, t2]
      have l1 : p.length + z.2 + q.length = 8 := by rw [k1] at hlen; simp at hlen; omega
      rw [parse_gap]
      · rw [show 8 - p.length - q.length = z.2 by omega, ← k1]
      · intro g hg; exact hlt g (by rw [k1]; simp [hg])
      · intro g hg; exact hlt g (by rw [k1]; simp [hg])
      · omega
    · exact parse_groups hlt hlen

theorem showGroups_chars (gs : List Nat) : ∀ c ∈ showGroups gs, 33 ≤ c ∧ c < 127 := by
  cases gs with
  | nil => simp [showGroups]
  | cons g gs =>
    intro c hc
    simp only [showGroups, List.mem_append, List.mem_flatMap, List.mem_cons] at hc
    rcases hc with h | ⟨b, -, h | h⟩
    · exact (hexNum_chars _ c h).2
    · subst h; decide
    · exact (hexNum_chars _ c h).2

theorem showV6_word {o : List UInt8} (ho : o.length = 16) : Word (showV6 o) := by
  have hlen := segments_length 8 o (by omega)
  unfold showV6
  split
  · have h4 : (o.drop 12).length = 4 := by simp; omega
    have hw := showV4_word (o := o.drop 12) (by intro h; rw [h] at h4; simp at h4)
    refine ⟨by simp, ?_⟩
    intro c hc
    rcases List.mem_append.mp hc with h | h
    · have : ∀ c ∈ ([58, 58, 102, 102, 102, 102, 58] : List UInt8), 33 ≤ c ∧ c < 127 := by decide
      exact this c h
    · exact hw.2 c h
  · dsimp only
    split
    · refine ⟨by simp, ?_⟩
      intro c hc
      rcases List.mem_append.mp hc with h | h
      · rcases List.mem_append.mp h with h | h
        · exact showGroups_chars _ c h
        · have : c = 58 := by simpa using h
          subst this; decide
      · exact showGroups_chars _ c h
    · refine ⟨?_, showGroups_chars _⟩
      cases h : segments o with
      | nil => rw [h] at hlen; simp at hlen
      | cons g gs => simp [showGroups, (hexNum_num g).ne]

theorem readGroups_length : ∀ (left i : Nat) (s : List UInt8), (readGroups left i s).1.length ≤ left := by
  intro left
  induction left with
  | zero => intro i s; simp [readGroups]
  | succ left ih =>
    intro i s
    rw [readGroups]
    split
    · rename_i vs t h
      split at h
      · simp at h
      · have : vs.length = 4 := by
          unfold readSep at h
          split at h
          · exact readV4_length _ _ _ _ _ h
          · split at h
            · split at h
              · exact readV4_length _ _ _ _ _ h
              · simp at h
            · simp at h
        simp only
        rw [segments_length 2 _ (by simp [this])]
        omega
    · split
      · simp
      · simp only [List.length_cons]; have := ih (i + 1); rename_i t _; have := this t; omega

theorem parseV6_length {s o : List UInt8} (h : parseV6 s = some o) : o.length = 16 := by
  unfold parseV6 at h
  split at h
  · rename_i vs h1
    simp at h; subst h
    rw [octets_length]
    unfold readV6 at h1
    dsimp only at h1
    have hl := readGroups_length 8 0 s
    split at h1
    · rename_i h8; simp at h1; rw [← h1.1, h8]
    · split at h1
      · simp at h1
      · unfold readTail at h1
        split at h1
        · rename_i t _
          have h1 := (Prod.mk.inj (Option.some.inj h1)).1
          have := readGroups_length (8 - ((readGroups 8 0 s).1.length + 1)) 0 t
          rw [← h1, List.length_append, List.length_append, List.length_replicate]; omega
        · simp at h1
  · simp at h

/-! ## base64 -/

theorem symbol_facts : ∀ n : Nat, n < 64 → value (symbol n) = some n ∧ symbol n ≠ 61 ∧ 33 ≤ symbol n ∧ symbol n < 127 := by decide +kernel

theorem u8_div (a : UInt8) (n : Nat) (h : n = a.toNat) : UInt8.ofNat n = a := by rw [h]; simp

theorem encode64_ne {a : UInt8} {t : List UInt8} : ∃ e u, encode64 (a :: t) = e :: u := by
  match t with
  | [] => exact ⟨_, _, rfl⟩
  | [b] => exact ⟨_, _, rfl⟩
  | b :: c :: t => exact ⟨_, _, rfl⟩

theorem decodeLast_two {x y : Nat} (hx : x < 64) (hy : y < 64) (p : List UInt8) (hp : p = [] ∨ p = [61] ∨ p = [61, 61]) (h0 : y % 16 = 0) :
    decodeLast (symbol x :: symbol y :: p) = some [UInt8.ofNat (4 * x + y / 16)] := by
  have fx := symbol_facts x hx; have fy := symbol_facts y hy
  have e1 : (symbol x :: symbol y :: p).takeWhile (· != 61) = [symbol x, symbol y] := by
    rcases hp with rfl | rfl | rfl <;> simp [List.takeWhile_cons, fx.2.1, fy.2.1]
  have e2 : (symbol x :: symbol y :: p).dropWhile (· != 61) = p := by
    rcases hp with rfl | rfl | rfl <;> simp [List.dropWhile_cons, fx.2.1, fy.2.1]
  unfold decodeLast
  rw [e1, e2]
  simp only [List.map_cons, List.map_nil, fx.1, fy.1]
  rw [if_pos ⟨hp, h0⟩]

theorem decodeLast_three {x y z : Nat} (hx : x < 64) (hy : y < 64) (hz : z < 64) (p : List UInt8) (hp : p = [] ∨ p = [61]) (h0 : z % 4 = 0) :
    decodeLast (symbol x :: symbol y :: symbol z :: p) = some [UInt8.ofNat (4 * x + y / 16), UInt8.ofNat (y % 16 * 16 + z / 4)] := by
  have fx := symbol_facts x hx; have fy := symbol_facts y hy; have fz := symbol_facts z hz
  have e1 : (symbol x :: symbol y :: symbol z :: p).takeWhile (· != 61) = [symbol x, symbol y, symbol z] := by
    rcases hp with rfl | rfl <;> simp [List.takeWhile_cons, fx.2.1, fy.2.1, fz.2.1]
  have e2 : (symbol x :: symbol y :: symbol z :: p).dropWhile (· != 61) = p := by
    rcases hp with rfl | rfl <;> simp [List.dropWhile_cons, fx.2.1, fy.2.1, fz.2.1]
  unfold decodeLast
  rw [e1, e2]
  simp only [List.map_cons, List.map_nil, fx.1, fy.1, fz.1]
  rw [if_pos ⟨hp, h0⟩]

theorem decodeLast_four {x y z w : Nat} (hx : x < 64) (hy : y < 64) (hz : z < 64) (hw : w < 64) :
    decodeLast [symbol x, symbol y, symbol z, symbol w] =
      some [UInt8.ofNat (4 * x + y / 16), UInt8.ofNat (y % 16 * 16 + z / 4), UInt8.ofNat (z % 4 * 64 + w)] := by
  have fx := symbol_facts x hx; have fy := symbol_facts y hy; have fz := symbol_facts z hz; have fw := symbol_facts w hw
  have e1 : ([symbol x, symbol y, symbol z, symbol w]).takeWhile (· != 61) = [symbol x, symbol y, symbol z, symbol w] := by
    simp [List.takeWhile_cons, fx.2.1, fy.2.1, fz.2.1, fw.2.1]
  have e2 : ([symbol x, symbol y, symbol z, symbol w]).dropWhile (· != 61) = [] := by
    simp [List.dropWhile_cons, fx.2.1, fy.2.1, fz.2.1, fw.2.1]
  unfold decodeLast
  rw [e1, e2]
  simp only [List.map_cons, List.map_nil, fx.1, fy.1, fz.1, fw.1]

/-- decoding reads back the encoding, also without some or all of the `=` at its end -/
theorem decode64_encode64 : ∀ (d p q : List UInt8), encode64 d = p ++ q → (∀ c ∈ q, c = 61) → decode64 p = some d
  | [], p, q, h, _ => by
    simp [encode64] at h; rw [h.1]; rfl
  | [a], p, q, h, hq => by
    have ha := a.toNat_lt
    have f := fun n hn => (symbol_facts n hn).2.1
    rw [encode64] at h
    match p, h with
    | [], h => simp at h; exact absurd (hq (symbol (a.toNat / 4)) (by rw [← h]; simp)) (f _ (by omega))
    | [_], h => simp at h; exact absurd (hq (symbol (a.toNat % 4 * 16)) (by rw [← h.2]; simp)) (f _ (by omega))
    | x :: y :: r, h =>
      simp at h
      obtain ⟨rfl, rfl, h⟩ := h
      have hr : r = [] ∨ r = [61] ∨ r = [61, 61] := by
        match r, h with
        | [], _ => exact .inl rfl
        | [u], h => simp at h; exact .inr (.inl (by rw [h.1]))
        | [u, v], h => simp at h; exact .inr (.inr (by rw [← h.1, ← h.2.1]))
        | u :: v :: w :: r, h => simp at h
      have := decodeLast_two (x := a.toNat / 4) (y := a.toNat % 4 * 16) (by omega) (by omega) r hr (by omega)
      have e : decode64 (symbol (a.toNat / 4) :: symbol (a.toNat % 4 * 16) :: r) = decodeLast (symbol (a.toNat / 4) :: symbol (a.toNat % 4 * 16) :: r) := by
        rcases hr with rfl | rfl | rfl <;> rfl
      rw [e, this, u8_div a _ (by omega)]
  | [a, b], p, q, h, hq => by
    have ha := a.toNat_lt; have hb := b.toNat_lt
    have f := fun n hn => (symbol_facts n hn).2.1
    rw [encode64] at h
    match p, h with
    | [], h => simp at h; exact absurd (hq (symbol (a.toNat / 4)) (by rw [← h]; simp)) (f _ (by omega))
    | [_], h => simp at h; exact absurd (hq (symbol (a.toNat % 4 * 16 + b.toNat / 16)) (by rw [← h.2]; simp)) (f _ (by omega))
    | [_, _], h => simp at h; exact absurd (hq (symbol (b.toNat % 16 * 4)) (by rw [← h.2.2]; simp)) (f _ (by omega))
    | x :: y :: z :: r, h =>
      simp at h
      obtain ⟨rfl, rfl, rfl, h⟩ := h
      have hr : r = [] ∨ r = [61] := by
        match r, h with
        | [], _ => exact .inl rfl
        | [u], h => simp at h; exact .inr (by rw [h.1])
        | u :: v :: r, h => simp at h
      have := decodeLast_three (x := a.toNat / 4) (y := a.toNat % 4 * 16 + b.toNat / 16) (z := b.toNat % 16 * 4) (by omega) (by omega) (by omega) r hr (by omega)
      have e : decode64 (symbol (a.toNat / 4) :: symbol (a.toNat % 4 * 16 + b.toNat / 16) :: symbol (b.toNat % 16 * 4) :: r) =
          decodeLast (symbol (a.toNat / 4) :: symbol (a.toNat % 4 * 16 + b.toNat / 16) :: symbol (b.toNat % 16 * 4) :: r) := by
        rcases hr with rfl | rfl <;> rfl
      rw [e, this, u8_div a _ (by omega), u8_div b _ (by omega)]
  | a :: b :: c :: t, p, q, h, hq => by
    have ha := a.toNat_lt; have hb := b.toNat_lt; have hc := c.toNat_lt
    have f := fun n hn => (symbol_facts n hn).2.1
    rw [encode64] at h
    match p, h with
    | [], h => simp at h; exact absurd (hq (symbol (a.toNat / 4)) (by rw [← h]; simp)) (f _ (by omega))
    | [_], h => simp at h; exact absurd (hq (symbol (a.toNat % 4 * 16 + b.toNat / 16)) (by rw [← h.2]; simp)) (f _ (by omega))
    | [_, _], h => simp at h; exact absurd (hq (symbol (b.toNat % 16 * 4 + c.toNat / 64)) (by rw [← h.2.2]; simp)) (f _ (by omega))
    | [_, _, _], h => simp at h; exact absurd (hq (symbol (c.toNat % 64)) (by rw [← h.2.2.2]; simp)) (f _ (by omega))
    | x :: y :: z :: w :: r, h =>
      simp at h
      obtain ⟨rfl, rfl, rfl, rfl, h⟩ := h
      have ih := decode64_encode64 t r q h hq
      have v1 := (symbol_facts (a.toNat / 4) (by omega)).1
      have v2 := (symbol_facts (a.toNat % 4 * 16 + b.toNat / 16) (by omega)).1
      have v3 := (symbol_facts (b.toNat % 16 * 4 + c.toNat / 64) (by omega)).1
      have v4 := (symbol_facts (c.toNat % 64) (by omega)).1
      match r with
      | [] =>
        simp [decode64] at ih; subst ih
        have := decodeLast_four (x := a.toNat / 4) (y := a.toNat % 4 * 16 + b.toNat / 16) (z := b.toNat % 16 * 4 + c.toNat / 64) (w := c.toNat % 64) (by omega) (by omega) (by omega) (by omega)
        rw [decode64, this, u8_div a _ (by omega), u8_div b _ (by omega), u8_div c _ (by omega)]
        all_goals simp
      | e :: r =>
        rw [decode64, v1, v2, v3, v4, ih]
        simp only
        rw [u8_div a _ (by omega), u8_div b _ (by omega), u8_div c _ (by omega)]

theorem encode64_chars : ∀ d : List UInt8, ∀ c ∈ encode64 d, 33 ≤ c ∧ c < 127
  | [], c, h => by simp [encode64] at h
  | [a], x, h => by
    have ha := a.toNat_lt
    have f := fun n hn => (symbol_facts n hn).2.2
    rw [encode64] at h
    simp only [List.mem_cons, List.not_mem_nil, or_false] at h
    rcases h with rfl | rfl | rfl | rfl
    · exact f _ (by omega)
    · exact f _ (by omega)
    · decide
    · decide
  | [a, b], x, h => by
    have ha := a.toNat_lt; have hb := b.toNat_lt
    have f := fun n hn => (symbol_facts n hn).2.2
    rw [encode64] at h
    simp only [List.mem_cons, List.not_mem_nil, or_false] at h
    rcases h with rfl | rfl | rfl | rfl
    · exact f _ (by omega)
    · exact f _ (by omega)
    · exact f _ (by omega)
    · decide
  | a :: b :: c :: t, x, h => by
    have ha := a.toNat_lt; have hb := b.toNat_lt; have hc := c.toNat_lt
    have f := fun n hn => (symbol_facts n hn).2.2
    rw [encode64] at h
    simp only [List.mem_append, List.mem_cons, List.not_mem_nil, or_false] at h
    rcases h with (rfl | rfl | rfl | rfl) | h
    · exact f _ (by omega)
    · exact f _ (by omega)
    · exact f _ (by omega)
    · exact f _ (by omega)
    · exact encode64_chars t x h

end R53.StdText

namespace R53
open StdText

theorem stdExt_laws : stdExt.Laws where
  v4 o h := ⟨showV4_word (by intro e; rw [e] at h; simp at h), parseV4_show h⟩
  v6 _ h := ⟨showV6_word h, parseV6_show h⟩
  b64 d h := ⟨⟨by cases d with | nil => exact absurd rfl h | cons a t => obtain ⟨e, u, h⟩ := encode64_ne (a := a) (t := t); show encode64 (a :: t) ≠ []; rw [h]; simp, encode64_chars d⟩,
    decode64_encode64 d _ [] (by rw [List.append_nil]; rfl) (by simp)⟩

theorem stdExt_sized : stdExt.Sized := ⟨fun _ _ h => parseV4_length h, fun _ _ h => parseV6_length h⟩

end R53
