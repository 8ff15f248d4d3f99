import Verif.Spec.Text
import Verif.Proofs.NameBasic
/-!
# Lemmas about the text layer: UTF-8, numbers, tokens, character-strings
-/
namespace R53

/-! ## UTF-8 -/

/-- a text may be cut before an octet that does not continue a character -/
theorem isUtf8_cut : ∀ (n : Nat) (a b : List UInt8), a.length ≤ n → isUtf8 (a ++ b) = true →
    (∀ c, b.head? = some c → isCont c = false) → isUtf8 a = true ∧ isUtf8 b = true := by
  intro n
  induction n with
  | zero =>
    intro a b hn h _
    have : a = [] := List.eq_nil_of_length_eq_zero (by omega)
    subst this
    exact ⟨rfl, h⟩
  | succ n ih =>
    intro a b hn h hb
    cases a with
    | nil => exact ⟨rfl, h⟩
    | cons x a =>
      simp only [List.length_cons] at hn
      rw [List.cons_append] at h
      rw [isUtf8.eq_def] at h ⊢
      simp only at h ⊢
      split at h
      · rename_i hx; rw [if_pos hx]; exact ih a b (by omega) h hb
      · rename_i hx; rw [if_neg hx]
        split at h
        · rename_i hx2; rw [if_pos hx2]
          cases a with
          | nil =>
            cases b with
            | nil => simp at h
            | cons y b => have := hb y rfl; simp [this] at h
          | cons y a =>
            simp only [List.cons_append, Bool.and_eq_true, List.length_cons] at h hn ⊢
            have := ih a b (by omega) h.2 hb
            exact ⟨⟨h.1, this.1⟩, this.2⟩
        · rename_i hx2; rw [if_neg hx2]
          split at h
          · rename_i hx3; rw [if_pos hx3]
            match a, b with
            | [], [] => simp at h
            | [], [y] => simp at h
            | [], y :: z :: b =>
              have := hb y rfl
              simp [this] at h
            | [y], [] => simp at h
            | [y], z :: b =>
              have := hb z rfl
              simp [this] at h
            | y :: z :: a, b =>
              simp only [List.cons_append, Bool.and_eq_true, List.length_cons] at h hn ⊢
              have := ih a b (by omega) h.2 hb
              exact ⟨⟨h.1, this.1⟩, this.2⟩
          · rename_i hx3; rw [if_neg hx3]
            split at h
            · rename_i hx4; rw [if_pos hx4]
              match a, b with
              | [], [] => simp at h
              | [], [y] => simp at h
              | [], [y, z] => simp at h
              | [], y :: z :: w :: b =>
                have := hb y rfl
                simp [this] at h
              | [y], [] => simp at h
              | [y], [z] => simp at h
              | [y], z :: w :: b =>
                have := hb z rfl
                simp [this] at h
              | [y, z], [] => simp at h
              | [y, z], w :: b =>
                have := hb w rfl
                simp [this] at h
              | y :: z :: w :: a, b =>
                simp only [List.cons_append, Bool.and_eq_true, List.length_cons] at h hn ⊢
                have := ih a b (by omega) h.2 hb
                exact ⟨⟨h.1, this.1⟩, this.2⟩
            · simp at h

theorem isUtf8_split {a b : List UInt8} (h : isUtf8 (a ++ b) = true) (hb : ∀ c, b.head? = some c → isCont c = false) :
    isUtf8 a = true ∧ isUtf8 b = true := isUtf8_cut a.length a b (Nat.le_refl _) h hb

theorem isUtf8_ascii {a : List UInt8} (h : ∀ c ∈ a, c.toNat < 0x80) : isUtf8 a = true := by
  induction a with
  | nil => rfl
  | cons x a ih =>
    rw [isUtf8.eq_def]
    simp only
    rw [if_pos (h x (by simp))]
    exact ih (fun c hc => h c (by simp [hc]))

theorem isUtf8_ascii_append {a b : List UInt8} (h : ∀ c ∈ a, c.toNat < 0x80) : isUtf8 (a ++ b) = isUtf8 b := by
  induction a with
  | nil => rfl
  | cons x a ih =>
    rw [List.cons_append, isUtf8.eq_def]
    simp only
    rw [if_pos (h x (by simp))]
    exact ih (fun c hc => h c (by simp [hc]))

theorem ascii_not_cont {c : UInt8} (h : c.toNat < 0x80) : isCont c = false := by
  simp [isCont]; omega

theorem blank_iff (c : UInt8) : isAsciiSpace c = true ↔ Blank c := by
  revert c; apply forall_u8'; decide +kernel

theorem blank_ascii {c : UInt8} (h : Blank c) : c.toNat < 0x80 := by
  revert c; apply forall_u8'; decide +kernel

/-! ## Words -/

theorem pieces_ne (t : List UInt8) : pieces t ≠ [] := by
  cases t with
  | nil => simp [pieces]
  | cons c t =>
    rw [pieces]; split
    · simp
    · split <;> simp

theorem words_blank {c : UInt8} (h : Blank c) (t : List UInt8) : words (c :: t) = words t := by
  simp [words, pieces, h]

theorem words_blanks {w : List UInt8} (h : ∀ c ∈ w, Blank c) (t : List UInt8) : words (w ++ t) = words t := by
  induction w with
  | nil => rfl
  | cons x w ih =>
    rw [List.cons_append, words_blank (h x (by simp)), ih (fun c hc => h c (by simp [hc]))]

theorem pieces_word {w t : List UInt8} (hw : ∀ c ∈ w, ¬ Blank c) (ht : ∀ c, t.head? = some c → Blank c) :
    pieces (w ++ t) = w :: (pieces t).tail := by
  induction w with
  | nil =>
    cases t with
    | nil => rfl
    | cons c t => simp [pieces, ht c rfl]
  | cons x w ih =>
    rw [List.cons_append, pieces, if_neg (hw x (by simp)), ih (fun c hc => hw c (by simp [hc]))]

theorem words_word {w t : List UInt8} (hne : w ≠ []) (hw : ∀ c ∈ w, ¬ Blank c) (ht : ∀ c, t.head? = some c → Blank c) :
    words (w ++ t) = w :: words t := by
  have h1 := pieces_word hw ht
  have h2 : (pieces t).filter (· ≠ []) = (pieces t).tail.filter (· ≠ []) := by
    have := pieces_word (w := []) (by simp) ht
    rw [List.nil_append] at this
    rw [this]; simp
  rw [words, h1, List.filter_cons, words, h2]
  simp [hne]

theorem words_nil : words [] = [] := by simp [words, pieces]

theorem words_all_blank {w : List UInt8} (h : ∀ c ∈ w, Blank c) : words w = [] := by
  have := words_blanks h []
  rw [List.append_nil] at this
  rw [this, words_nil]

/-! ## Cursor -/

namespace StrBuf

/-- the buffer with `pre` read and `rest` left -/
def cur (pre rest : List UInt8) : StrBuf := ⟨pre ++ rest, pre.length⟩

theorem cur_drop (b : StrBuf) (h : b.pos ≤ b.raw.length) : b = cur (b.raw.take b.pos) (b.raw.drop b.pos) := by
  unfold cur
  rw [List.take_append_drop, List.length_take, Nat.min_eq_left h]

theorem is_eos_cur (pre rest : List UInt8) : (cur pre rest).is_eos = decide (rest = []) := by
  cases rest <;> simp [cur, is_eos]

theorem idx_cur (pre : List UInt8) (c : UInt8) (t : List UInt8) : idx (pre ++ c :: t) pre.length = .ok c := by
  apply idx_ok; simp

theorem skipWhile_spec {p : UInt8 → Bool} : ∀ (w : List UInt8) (fuel : Nat) (pre r : List UInt8), w.length ≤ fuel →
    (∀ c ∈ w, p c = true) → (∀ c, r.head? = some c → p c = false) → (r ≠ [] → w.length < fuel) →
    skipWhile p (pre ++ (w ++ r)) fuel pre.length = .ok (pre.length + w.length) := by
  intro w
  induction w with
  | nil =>
    intro fuel pre r hf hw hr hf2
    rw [skipWhile.eq_def]
    simp only
    cases r with
    | nil => simp
    | cons c r =>
      have hf3 := hf2 (by simp)
      rw [if_neg (by simp)]
      match fuel, hf3 with
      | fuel + 1, _ =>
        simp only [List.nil_append]
        rw [idx_cur]
        simp [hr c rfl]
  | cons x w ih =>
    intro fuel pre r hf hw hr hf2
    rw [skipWhile.eq_def]
    simp only
    rw [if_neg (by simp)]
    match fuel, hf with
    | fuel + 1, hf =>
      simp only [List.cons_append]
      rw [idx_cur]
      simp only [Res.bind_ok]
      rw [if_pos (hw x (by simp))]
      have := ih fuel (pre ++ [x]) r (by simpa using hf) (fun c hc => hw c (by simp [hc])) hr (fun h => by have := hf2 h; simp at this; omega)
      simp only [List.append_assoc, List.singleton_append, List.length_append, List.length_singleton] at this
      rw [this]
      congr 1
      simp; omega

theorem skip_cur {pre w r : List UInt8} (hw : ∀ c ∈ w, Blank c) (hr : ∀ c, r.head? = some c → ¬ Blank c) :
    skip_whitespace (cur pre (w ++ r)) = (.ok (), cur (pre ++ w) r) := by
  unfold skip_whitespace
  rw [St.get_bind]
  rw [St.lift_ok_bind (a := pre.length + w.length)]
  · simp [cur]
  · unfold cur
    apply skipWhile_spec
    · simp
    · intro c hc; exact (blank_iff c).2 (hw c hc)
    · intro c hc
      have := hr c hc
      rw [← blank_iff] at this
      simpa using this
    · intro h
      have := List.length_pos_iff.2 h
      simp; omega

/-- every text starts with some blanks -/
theorem blanks_ahead (t : List UInt8) : ∃ w r, t = w ++ r ∧ (∀ c ∈ w, Blank c) ∧ ∀ c, r.head? = some c → ¬ Blank c := by
  induction t with
  | nil => exact ⟨[], [], rfl, by simp, by simp⟩
  | cons x t ih =>
    by_cases hx : Blank x
    · obtain ⟨w, r, h1, h2, h3⟩ := ih
      exact ⟨x :: w, r, by rw [h1]; rfl, fun c hc => (List.mem_cons.1 hc).elim (fun h => h ▸ hx) (h2 c), h3⟩
    · exact ⟨[], x :: t, rfl, by simp, by intro c hc; simp at hc; exact hc ▸ hx⟩

/-- and then a word -/
theorem word_ahead (t : List UInt8) : ∃ w r, t = w ++ r ∧ (∀ c ∈ w, ¬ Blank c) ∧ ∀ c, r.head? = some c → Blank c := by
  induction t with
  | nil => exact ⟨[], [], rfl, by simp, by simp⟩
  | cons x t ih =>
    by_cases hx : Blank x
    · exact ⟨[], x :: t, rfl, by simp, by intro c hc; simp at hc; exact hc ▸ hx⟩
    · obtain ⟨w, r, h1, h2, h3⟩ := ih
      exact ⟨x :: w, r, by rw [h1]; rfl, fun c hc => (List.mem_cons.1 hc).elim (fun h => h ▸ hx) (h2 c), h3⟩

theorem read_str_word {pre w t r : List UInt8} (hw : ∀ c ∈ w, Blank c) (hne : t ≠ []) (ht : ∀ c ∈ t, ¬ Blank c)
    (hr : ∀ c, r.head? = some c → Blank c) (hu : isUtf8 t = true) :
    read_str (cur pre (w ++ (t ++ r))) = (.ok (some t), cur (pre ++ w ++ t) r) := by
  unfold read_str
  rw [St.bind_ok (skip_cur hw (r := t ++ r) (by
    intro c hc
    match t, hne with
    | x :: t, _ => simp at hc; exact hc ▸ ht x (by simp)))]
  rw [St.get_bind]
  rw [St.lift_ok_bind (a := (pre ++ w).length + t.length)]
  · rw [St.put_bind]
    rw [if_neg (by
      have := List.length_pos_iff.2 hne
      simp only [cur]; omega)]
    rw [St.lift_ok_bind (a := t)]
    · rw [St.lift_ok_bind (a := t)]
      · simp [cur, Nat.add_assoc]
      · simp [from_utf8_unwrap, hu]
    · unfold cur
      simp only
      rw [slice_ok (by omega) (by simp; omega)]
      congr 1
      rw [List.drop_left]
      simp
  · unfold cur
    apply skipWhile_spec
    · simp; omega
    · intro c hc
      have := ht c hc
      rw [← blank_iff] at this
      simpa using this
    · intro c hc
      have := hr c hc
      rw [← blank_iff] at this
      simpa using this
    · intro h
      have := List.length_pos_iff.2 h
      simp; omega

theorem read_str_none {pre w : List UInt8} (hw : ∀ c ∈ w, Blank c) :
    read_str (cur pre w) = (.ok none, cur (pre ++ w) []) := by
  unfold read_str
  have := skip_cur (pre := pre) hw (r := []) (by simp)
  rw [List.append_nil] at this
  rw [St.bind_ok this]
  rw [St.get_bind]
  rw [St.lift_ok_bind (a := (pre ++ w).length)]
  · rw [St.put_bind]
    rw [if_pos (by rfl)]
    simp [cur]
  · unfold cur
    have := skipWhile_spec (p := fun c => !isAsciiSpace c) [] 0 (pre ++ w) [] (by simp) (by simp) (by simp) (by simp)
    simpa using this

/-- one call of `next` / `read_str` -/
theorem read_str_spec5 {pre rest : List UInt8} (hu : isUtf8 rest = true) :
    ∃ mid rest', rest = mid ++ rest' ∧ isUtf8 rest' = true ∧
      read_str (cur pre rest) = (.ok (words rest).head?, cur (pre ++ mid) rest') ∧ words rest' = (words rest).tail ∧
      ∀ c, rest'.head? = some c → Blank c := by
  obtain ⟨w, r, rfl, hw, hr⟩ := blanks_ahead rest
  obtain ⟨t, r, rfl, ht, hr2⟩ := word_ahead r
  have hur := hu
  rw [isUtf8_ascii_append (fun c hc => blank_ascii (hw c hc))] at hur
  have hu2 := isUtf8_split hur (fun c hc => ascii_not_cont (blank_ascii (hr2 c hc)))
  by_cases hne : t = []
  · subst hne
    cases r with
    | nil =>
      refine ⟨w, [], by simp, rfl, ?_, ?_, by simp⟩
      · simp only [List.append_nil]
        rw [read_str_none hw, words_all_blank hw]; rfl
      · simp only [List.append_nil]; rw [words_all_blank hw]; rfl
    | cons x r => exact absurd (hr2 x rfl) (hr x rfl)
  · refine ⟨w ++ t, r, by simp, hu2.2, ?_, ?_, hr2⟩
    · rw [read_str_word hw hne ht hr2 hu2.1, words_blanks hw, words_word hne ht hr2]
      simp
    · rw [words_blanks hw, words_word hne ht hr2]; rfl

theorem read_str_spec {pre rest : List UInt8} (hu : isUtf8 rest = true) :
    ∃ mid rest', rest = mid ++ rest' ∧ isUtf8 rest' = true ∧
      read_str (cur pre rest) = (.ok (words rest).head?, cur (pre ++ mid) rest') ∧ words rest' = (words rest).tail := by
  obtain ⟨mid, rest', h1, h2, h3, h4, -⟩ := read_str_spec5 (pre := pre) hu
  exact ⟨mid, rest', h1, h2, h3, h4⟩

theorem read_left_spec {pre rest : List UInt8} (hu : isUtf8 rest = true) :
    read_left (cur pre rest) = (.ok (if rest = [] then none else some rest), cur (pre ++ rest) []) := by
  unfold read_left
  rw [St.get_bind, is_eos_cur]
  by_cases h : rest = []
  · subst h; simp [cur]
  · simp only [h, decide_false, if_neg, Bool.false_eq_true, not_false_eq_true]
    rw [St.lift_ok_bind (a := rest)]
    · rw [St.lift_ok_bind (a := rest)]
      · simp [cur, St.put_bind]
      · simp [from_utf8_unwrap, hu]
    · unfold cur
      simp only
      rw [slice_ok (by simp) (by simp)]
      simp

/-! ## Character-strings -/

theorem digit_iff (c : UInt8) : isAsciiDigit c = true ↔ 48 ≤ c ∧ c ≤ 57 := by
  revert c; apply forall_u8'; decide +kernel

theorem digit_of (c : UInt8) (h : isAsciiDigit c = true) : ∃ x, x ≤ 9 ∧ c = UInt8.ofNat (48 + x) := by
  simp only [isAsciiDigit, Bool.and_eq_true, decide_eq_true_eq] at h
  refine ⟨c.toNat - 48, by omega, ?_⟩
  rw [show 48 + (c.toNat - 48) = c.toNat by omega]
  simp

theorem toNat_digit {x : Nat} (h : x ≤ 9) : (UInt8.ofNat (48 + x)).toNat = 48 + x := by
  simp; omega
theorem isDigit_digit {x : Nat} (h : x ≤ 9) : isAsciiDigit (UInt8.ofNat (48 + x)) = true := by
  simp only [isAsciiDigit, toNat_digit h]; simp; omega

/-- three digits -/
theorem parse3 {x y z : Nat} (hx : x ≤ 9) (hy : y ≤ 9) (hz : z ≤ 9) :
    parseNum 255 [UInt8.ofNat (48 + x), UInt8.ofNat (48 + y), UInt8.ofNat (48 + z)] =
      if 100 * x + 10 * y + z < 256 then .ok (100 * x + 10 * y + z) else .err := by
  have h0 : ¬ (UInt8.ofNat (48 + x) = 43 ∧ [UInt8.ofNat (48 + y), UInt8.ofNat (48 + z)] ≠ []) := by
    intro h
    have := congrArg UInt8.toNat h.1
    rw [toNat_digit hx] at this
    have e : (43 : UInt8).toNat = 43 := rfl
    omega
  unfold parseNum
  simp only
  rw [if_neg h0]
  simp only [parseDigits, isDigit_digit hx, isDigit_digit hy, isDigit_digit hz, toNat_digit hx, toNat_digit hy, toNat_digit hz, if_true]
  simp only [Nat.zero_mul, Nat.zero_add, Nat.add_sub_cancel_left]
  rw [if_pos (by omega), if_pos (by omega)]
  by_cases h : 100 * x + 10 * y + z < 256
  · rw [if_pos h, if_pos (by omega)]; congr 1; omega
  · rw [if_neg h, if_neg (by omega)]

theorem slice_cur {pre mid r : List UInt8} : slice (pre ++ (mid ++ r)) pre.length (pre.length + mid.length) = .ok mid := by
  rw [slice_ok (by omega) (by simp)]
  simp

theorem escapedNum_spec {pre r : List UInt8} {x y z : Nat} (hx : x ≤ 9) (hy : y ≤ 9) (hz : z ≤ 9) :
    escapedNum (pre ++ (UInt8.ofNat (48 + x) :: UInt8.ofNat (48 + y) :: UInt8.ofNat (48 + z) :: r)) pre.length =
      if 100 * x + 10 * y + z < 256 then .ok (UInt8.ofNat (100 * x + 10 * y + z)) else .err := by
  unfold escapedNum
  rw [csub_ok (by simp)]
  simp only [Res.bind_ok]
  rw [if_neg (by simp)]
  have := slice_cur (pre := pre) (mid := [UInt8.ofNat (48 + x), UInt8.ofNat (48 + y), UInt8.ofNat (48 + z)]) (r := r)
  simp only [List.cons_append, List.nil_append, List.length_cons, List.length_nil] at this
  rw [this]
  simp only [Res.bind_ok]
  rw [from_utf8, if_pos]
  · simp only [Res.bind_ok]
    rw [parse3 hx hy hz]
    split <;> simp
  · apply isUtf8_ascii
    intro c hc
    simp only [List.mem_cons, List.not_mem_nil, or_false] at hc
    rcases hc with h | h | h <;> subst h
    · rw [toNat_digit hx]; omega
    · rw [toNat_digit hy]; omega
    · rw [toNat_digit hz]; omega

theorem charLoop_step {raw : List UInt8} {fuel pos : Nat} {esc : Bool} {data : List UInt8} (h : pos ≠ raw.length) :
    charLoop raw (fuel + 1) pos esc data =
      match idx raw pos with
        | .err => (.err, pos)
        | .panic => (.panic, pos)
        | .ok c =>
          if c = 92 ∧ esc = false then charLoop raw fuel (pos + 1) true data
          else if c = 34 ∧ esc = false then ((if data = [] then .err else .ok data), pos + 1)
          else if esc = true ∧ isAsciiDigit c then
            match escapedNum raw pos with
            | .err => (.err, pos)
            | .panic => (.panic, pos)
            | .ok num =>
              if (data ++ [num]).length > 255 then (.err, pos + 3)
              else charLoop raw fuel (pos + 3) false (data ++ [num])
          else if (data ++ [c]).length > 255 then (.err, pos + 1)
          else charLoop raw fuel (pos + 1) false (data ++ [c]) := by
  rw [charLoop.eq_def]
  simp only
  rw [if_neg h]
  cases idx raw pos with
  | ok c => rfl
  | err => rfl
  | panic => rfl

/-- the loop reads a quoted body -/
theorem charLoop_quoted {body d : List UInt8} (h : Quoted body d) : ∀ (fuel : Nat) (pre r data : List UInt8),
    body.length < fuel → (data ++ d).length ≤ 255 →
    charLoop (pre ++ (body ++ 34 :: r)) fuel pre.length false data =
      ((if data ++ d = [] then .err else .ok (data ++ d)), pre.length + body.length + 1) := by
  induction h with
  | nil =>
    intro fuel pre r data hf hl
    match fuel, hf with
    | fuel + 1, _ =>
      rw [charLoop_step (by simp)]
      simp only [List.nil_append]
      rw [idx_cur]
      simp
  | @plain c t d h1 h2 hq ih =>
    intro fuel pre r data hf hl
    match fuel, hf with
    | fuel + 1, hf =>
      rw [charLoop_step (by simp)]
      simp only [List.cons_append]
      rw [idx_cur]
      simp only [h1, h2, false_and, if_false, Bool.false_eq_true]
      rw [if_neg (by simp at hl ⊢; omega)]
      have := ih fuel (pre ++ [c]) r (data ++ [c]) (by simp only [List.length_cons] at hf; omega) (by simpa [Nat.add_assoc] using hl)
      simp only [List.append_assoc, List.singleton_append, List.length_append, List.length_singleton] at this
      rw [this]
      simp; omega
  | @escaped c t d h1 hq ih =>
    intro fuel pre r data hf hl
    match fuel, hf with
    | fuel + 2, hf =>
      rw [charLoop_step (by simp)]
      simp only [List.cons_append]
      rw [idx_cur]
      simp only [and_self, if_true]
      rw [charLoop_step (by simp)]
      have e : pre ++ 92 :: c :: (t ++ 34 :: r) = (pre ++ [92]) ++ c :: (t ++ 34 :: r) := by simp
      have e2 : pre.length + 1 = (pre ++ [92]).length := by simp
      rw [e, e2, idx_cur]
      rw [← digit_iff] at h1
      simp only [h1, Bool.true_eq_false, and_false, if_false, Bool.false_eq_true]
      rw [if_neg (show ¬ ((data ++ [c]).length > 255) by simp at hl ⊢; omega)]
      have := ih fuel (pre ++ [92] ++ [c]) r (data ++ [c]) (by simp only [List.length_cons] at hf; omega) (by simpa [Nat.add_assoc] using hl)
      simp only [List.append_assoc, List.singleton_append, List.length_append, List.length_singleton, List.cons_append, List.nil_append] at this ⊢
      simp only [List.length_cons, List.length_nil] at this ⊢
      rw [Nat.add_assoc]
      rw [this]
      refine Prod.ext rfl ?_
      simp only [List.length_cons]; omega
    | 1, hf => simp at hf
  | @number x y z t d hx hy hz hn hq ih =>
    intro fuel pre r data hf hl
    match fuel, hf with
    | 1, hf => simp at hf
    | fuel + 2, hf =>
      rw [charLoop_step (by simp)]
      simp only [List.cons_append]
      rw [idx_cur]
      simp only [and_self, if_true]
      rw [charLoop_step (by simp)]
      generalize hA : UInt8.ofNat (48 + x) = A
      have e : pre ++ 92 :: A :: UInt8.ofNat (48 + y) :: UInt8.ofNat (48 + z) :: (t ++ 34 :: r) =
        (pre ++ [92]) ++ (A :: UInt8.ofNat (48 + y) :: UInt8.ofNat (48 + z) :: (t ++ 34 :: r)) := by simp
      have e2 : pre.length + 1 = (pre ++ [92]).length := by simp
      rw [e, e2, idx_cur]
      subst hA
      simp only [isDigit_digit hx, Bool.true_eq_false, and_false, if_false, and_self, if_true]
      rw [escapedNum_spec hx hy hz, if_pos hn]
      simp only
      rw [if_neg (by simp at hl ⊢; omega)]
      have := ih fuel (pre ++ [92] ++ [UInt8.ofNat (48 + x), UInt8.ofNat (48 + y), UInt8.ofNat (48 + z)]) r (data ++ [UInt8.ofNat (100 * x + 10 * y + z)])
        (by simp at hf; omega) (by simpa [Nat.add_assoc] using hl)
      simp only [List.append_assoc, List.length_append, List.length_singleton, List.cons_append, List.nil_append] at this ⊢
      simp only [List.length_cons, List.length_nil] at this ⊢
      rw [Nat.add_assoc]
      rw [this]
      refine Prod.ext rfl ?_
      simp only [List.length_cons]; omega

end StrBuf
end R53
