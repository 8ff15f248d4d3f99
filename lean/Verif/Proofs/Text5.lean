import Verif.Proofs.Text4
import Verif.Props.NameText
/-!
# Text parsing does not panic
-/
namespace R53

theorem parseDigits_safe {max : Nat} : ∀ (s : List UInt8) (acc : Nat), parseDigits max s acc ≠ .panic := by
  intro s
  induction s with
  | nil => intro acc; simp [parseDigits]
  | cons c s ih =>
    intro acc
    rw [parseDigits]
    split
    · simp only; split
      · exact ih _
      · simp
    · simp

theorem parseNum_safe {max : Nat} (s : List UInt8) : parseNum max s ≠ .panic := by
  unfold parseNum
  split
  · simp
  · split <;> exact parseDigits_safe _ _

theorem Res.bind_safe {α β : Type} {x : Res α} {f : α → Res β} (h1 : x ≠ .panic) (h2 : ∀ a, x = .ok a → f a ≠ .panic) :
    (x >>= f) ≠ .panic := by
  cases x with
  | ok a => exact h2 a rfl
  | err => simp
  | panic => exact absurd rfl h1

theorem parseInt_safe (s : List UInt8) : parseInt s ≠ .panic := by
  unfold parseInt
  split
  · simp
  · split
    · exact Res.bind_safe (parseDigits_safe _ _) (by simp)
    · exact Res.bind_safe (parseNum_safe _) (by simp)

theorem timestamp_safe (y : Int) (mo d h mi s : Nat) : Cal.timestamp y mo d h mi s ≠ .panic := by
  unfold Cal.timestamp; split <;> simp

theorem ite_safe {α : Type} {c : Prop} [Decidable c] {a b : Res α} (ha : a ≠ .panic) (hb : b ≠ .panic) :
    (if c then a else b) ≠ .panic := by split <;> assumption

theorem type_from_str_safe (s : List UInt8) : RRType.from_str s ≠ .panic := by
  unfold RRType.from_str
  simp only
  repeat refine ite_safe (by simp) ?_
  simp
theorem class_from_str_safe (s : List UInt8) : RRClass.from_str s ≠ .panic := by
  unfold RRClass.from_str
  simp only
  repeat refine ite_safe (by simp) ?_
  simp

theorem ofOption_safe {α : Type} (o : Option α) : Res.ofOption o ≠ .panic := by cases o <;> simp [Res.ofOption]

theorem timestampParse_safe {s : List UInt8} (hs : ∀ c ∈ s, c.toNat < 0x80) : Field.timestampParse s ≠ .panic := by
  unfold Field.timestampParse
  by_cases h : s.length = 14
  · rw [ensure_bind_ok h]
    rw [strSlice_ascii hs (by omega) (by omega), Res.bind_ok]
    refine Res.bind_safe (parseInt_safe _) (fun y _ => ?_)
    rw [strSlice_ascii hs (by omega) (by omega), Res.bind_ok]
    refine Res.bind_safe (parseNum_safe _) (fun y _ => ?_)
    rw [strSlice_ascii hs (by omega) (by omega), Res.bind_ok]
    refine Res.bind_safe (parseNum_safe _) (fun y _ => ?_)
    refine Res.bind_safe (timestamp_safe _ _ _ _ _ _) (fun y _ => ?_)
    rw [strSlice_ascii hs (by omega) (by omega), Res.bind_ok]
    refine Res.bind_safe (parseNum_safe _) (fun y _ => ?_)
    rw [strSlice_ascii hs (by omega) (by omega), Res.bind_ok]
    refine Res.bind_safe (parseNum_safe _) (fun y _ => ?_)
    rw [strSlice_ascii hs (by omega) (by omega), Res.bind_ok]
    refine Res.bind_safe (parseNum_safe _) (fun y _ => ?_)
    exact Res.bind_safe (timestamp_safe _ _ _ _ _ _) (by simp)
  · rw [ensure_bind_err h]; simp

open StrBuf

/-- on what is left of a text (ASCII if `A`), the call does not panic, and if it succeeds what is left is a text -/
def TextSafe (A : Prop) {α : Type} (m : St StrBuf α) : Prop :=
  ∀ pre rest, isUtf8 rest = true → (A → ∀ c ∈ rest, c.toNat < 0x80) →
    ∃ res pre' rest', m (cur pre rest) = (res, cur pre' rest') ∧ res ≠ .panic ∧ pre' ++ rest' = pre ++ rest ∧
      ∀ v, res = .ok v → isUtf8 rest' = true ∧ ∃ mid, rest = mid ++ rest'

namespace TextSafe
variable {A : Prop} {α β : Type}

theorem pure (a : α) : TextSafe A (Pure.pure a : St StrBuf α) :=
  fun pre rest hu _ => ⟨.ok a, pre, rest, rfl, by simp, rfl, fun _ _ => ⟨hu, [], rfl⟩⟩

theorem fail : TextSafe A (St.fail : St StrBuf α) :=
  fun pre rest _ _ => ⟨.err, pre, rest, rfl, by simp, rfl, fun _ h => by cases h⟩

theorem lift {r : Res α} (h : r ≠ .panic) : TextSafe A (St.lift r : St StrBuf α) :=
  fun pre rest hu _ => ⟨r, pre, rest, rfl, h, rfl, fun _ _ => ⟨hu, [], rfl⟩⟩

theorem bind {m : St StrBuf α} {f : α → St StrBuf β} (h1 : TextSafe A m) (h2 : ∀ a, TextSafe A (f a)) : TextSafe A (m >>= f) := by
  intro pre rest hu ha
  obtain ⟨res, pre', rest', e, h3, h4, h5⟩ := h1 pre rest hu ha
  cases res with
  | panic => exact absurd rfl h3
  | err => rw [St.bind_err e]; exact ⟨.err, pre', rest', rfl, by simp, h4, fun _ h => by cases h⟩
  | ok a =>
    obtain ⟨k1, mid, k2⟩ := h5 a rfl
    rw [St.bind_ok e]
    obtain ⟨res2, pre2, rest2, e2, g3, g4, g5⟩ := h2 a pre' rest' k1 (fun hA c hc => ha hA c (by rw [k2]; simp [hc]))
    refine ⟨res2, pre2, rest2, e2, g3, by rw [g4, h4], ?_⟩
    intro v hv
    obtain ⟨q1, mid2, q2⟩ := g5 v hv
    exact ⟨q1, mid ++ mid2, by rw [k2, q2]; simp⟩

theorem read_str : TextSafe A StrBuf.read_str := by
  intro pre rest hu ha
  obtain ⟨mid, rest', h1, h2, h3, h4⟩ := read_str_spec (pre := pre) hu
  exact ⟨_, _, _, h3, by simp, by rw [h1]; simp, fun _ _ => ⟨h2, mid, h1⟩⟩

theorem read_left : TextSafe A StrBuf.read_left := by
  intro pre rest hu ha
  exact ⟨_, _, _, read_left_spec hu, by simp, by simp, fun _ _ => ⟨rfl, rest, by simp⟩⟩

theorem read_char_string : TextSafe A StrBuf.read_char_string := by
  intro pre rest hu ha
  obtain ⟨res, pre', rest', h1, h2, h3, h4⟩ := read_char_string_spec pre rest
  refine ⟨res, pre', rest', h1, h2, h3, ?_⟩
  intro v hv
  obtain ⟨s, s1, s2, s3, s4⟩ := h4 v hv
  rw [s4] at hu
  exact ⟨utf8_after hu, s.text, s4⟩

theorem read_text : TextSafe A StrBuf.read_text := by
  intro pre rest hu ha
  obtain ⟨res, pre', rest', h1, h2, h3, h4⟩ := read_text_spec pre rest
  refine ⟨res, pre', rest', h1, h2, h3, ?_⟩
  intro v hv
  obtain ⟨ss, s1, s2, s3, s4, s5⟩ := h4 v hv
  subst s5
  exact ⟨rfl, rest, by simp⟩

/-- words of what is left are pieces of it -/
theorem words_head {rest w : List UInt8} (h : (words rest).head? = some w) : ∀ c ∈ w, c ∈ rest := by
  obtain ⟨b, r, rfl, hb, hr⟩ := blanks_ahead rest
  obtain ⟨t, r, rfl, ht, hr2⟩ := word_ahead r
  rw [words_blanks hb] at h
  by_cases hne : t = []
  · subst hne
    cases r with
    | nil => rw [List.nil_append, words_nil] at h; simp at h
    | cons x r => exact absurd (hr2 x rfl) (hr x rfl)
  · rw [words_word hne ht hr2] at h
    simp at h; subst h
    intro c hc; simp [hc]

/-- `read::<T>` if the parser does not panic on the word -/
theorem read {parse : List UInt8 → Res α} (h : ∀ w, (A → ∀ c ∈ w, c.toNat < 0x80) → parse w ≠ .panic) :
    TextSafe A (StrBuf.read parse) := by
  intro pre rest hu ha
  obtain ⟨mid, rest', h1, h2, h3, h4⟩ := read_str_spec (pre := pre) hu
  unfold StrBuf.read
  rw [St.bind_ok h3]
  cases hw : (words rest).head? with
  | none => exact ⟨.err, _, _, rfl, by simp, by rw [h1]; simp, fun _ h => by cases h⟩
  | some w =>
    exact ⟨parse w, _, _, rfl, h w (fun hA c hc => ha hA c (words_head hw c hc)), by rw [h1]; simp, fun _ _ => ⟨h2, mid, h1⟩⟩

theorem field (x : Ext) (k : Disp) (h : k = .timestamp → A) : TextSafe A (Field.from_str x k) := by
  cases k with
  | name => exact bind (read fun w _ => (Name.c04_new_limits_partial w).1) (fun _ => pure _)
  | ipv4 => exact bind (read fun w _ => ofOption_safe _) (fun _ => pure _)
  | ipv6 => exact bind (read fun w _ => ofOption_safe _) (fun _ => pure _)
  | u8 => exact bind (read fun w _ => parseNum_safe _) (fun _ => pure _)
  | u16 => exact bind (read fun w _ => parseNum_safe _) (fun _ => pure _)
  | u32 => exact bind (read fun w _ => parseNum_safe _) (fun _ => pure _)
  | rrtype => exact bind (read fun w _ => type_from_str_safe _) (fun _ => pure _)
  | text => exact bind read_text (fun _ => pure _)
  | string => exact bind read_char_string (fun _ => pure _)
  | binary => exact bind (read fun w _ => ofOption_safe _) (fun _ => pure _)
  | base64 =>
    refine bind read_left (fun o => ?_)
    cases o with
    | none => exact fail
    | some s => exact bind (lift (ofOption_safe _)) (fun _ => pure _)
  | timestamp => exact bind (read fun w hw => timestampParse_safe (hw (h rfl))) (fun _ => pure _)

theorem allFields (x : Ext) : ∀ (cs : List (Codec × Disp)), (∀ c ∈ cs, c.2 = .timestamp → A) → TextSafe A (Field.allFromStr x cs) := by
  intro cs
  induction cs with
  | nil => intro _; exact pure _
  | cons c cs ih =>
    intro h
    exact bind (field x c.2 (h c (by simp))) (fun v => bind (ih (fun c hc => h c (by simp [hc]))) (fun vs => pure _))

theorem schema_noTime {t : RRType} {cs : List (Codec × Disp)} (ht : t ≠ .RRSIG) (hs : schema t = some cs) :
    cs.all (fun c => c.2 != .timestamp) = true := by
  cases t <;> simp only [schema] at hs <;> first | contradiction | (cases hs; rfl)

theorem rdata (x : Ext) (t : RRType) (h : t = .RRSIG → A) : TextSafe A (RData.from_string_buffer x t) := by
  unfold RData.from_string_buffer
  cases hs : schema t with
  | none => exact fail
  | some cs =>
    refine bind (allFields x cs ?_) (fun vs => pure _)
    intro c hc he
    apply h
    by_cases ht : t = .RRSIG
    · exact ht
    · have := List.all_eq_true.mp (schema_noTime ht hs) c hc
      rw [he] at this
      exact absurd this (by decide)

theorem nextWord : TextSafe A RRset.nextWord := by
  refine bind read_str (fun o => ?_)
  cases o with
  | none => exact fail
  | some s => exact pure s

theorem classType : TextSafe A RRset.classType := by
  refine bind nextWord (fun w => ?_)
  cases hc : RRClass.from_str w with
  | ok c =>
    exact bind nextWord (fun w => bind (lift (type_from_str_safe w)) (fun _ => pure _))
  | err => exact bind (lift (type_from_str_safe w)) (fun _ => pure _)
  | panic => exact bind (lift (type_from_str_safe w)) (fun _ => pure _)

/-- a whole record in ASCII -/
theorem parse (x : Ext) : TextSafe True (RRset.parse x) := by
  refine bind nextWord (fun w => ?_)
  refine bind (lift (Name.c04_new_limits_partial w).1) (fun n => ?_)
  refine bind nextWord (fun w => ?_)
  refine bind (lift (parseNum_safe w)) (fun ttl => ?_)
  refine bind classType (fun ct => ?_)
  exact bind (rdata x ct.2 (fun _ => trivial)) (fun _ => pure _)

end TextSafe

/-! ## A record of another type than RRSIG, in any script -/

/-- like `TextSafe`, for texts without a word that reads as RRSIG, and keeping that -/
def WordSafe {α : Type} (m : St StrBuf α) (P : α → Prop) : Prop :=
  ∀ pre rest, isUtf8 rest = true → (∀ w ∈ words rest, RRType.from_str w ≠ .ok .RRSIG) →
    ∃ res pre' rest', m (cur pre rest) = (res, cur pre' rest') ∧ res ≠ .panic ∧
      ∀ v, res = .ok v → isUtf8 rest' = true ∧ (∀ w ∈ words rest', RRType.from_str w ≠ .ok .RRSIG) ∧ P v

theorem WordSafe.bind {α β : Type} {m : St StrBuf α} {f : α → St StrBuf β} {P : α → Prop} {Q : β → Prop}
    (h1 : WordSafe m P) (h2 : ∀ a, P a → WordSafe (f a) Q) : WordSafe (m >>= f) Q := by
  intro pre rest hu ha
  obtain ⟨res, pre', rest', e, h3, h5⟩ := h1 pre rest hu ha
  cases res with
  | panic => exact absurd rfl h3
  | err => rw [St.bind_err e]; exact ⟨.err, pre', rest', rfl, by simp, fun _ h => by cases h⟩
  | ok a =>
    obtain ⟨k1, k2, k3⟩ := h5 a rfl
    rw [St.bind_ok e]
    exact h2 a k3 pre' rest' k1 k2

theorem WordSafe.lift {α : Type} {r : Res α} {P : α → Prop} (h : r ≠ .panic) (hp : ∀ v, r = .ok v → P v) :
    WordSafe (St.lift r) P :=
  fun pre rest hu hw => ⟨r, pre, rest, rfl, h, fun v hv => ⟨hu, hw, hp v hv⟩⟩

theorem WordSafe.pure {α : Type} {a : α} {P : α → Prop} (hp : P a) : WordSafe (Pure.pure a) P :=
  fun pre rest hu hw => ⟨.ok a, pre, rest, rfl, by simp, fun v hv => ⟨hu, hw, by cases hv; exact hp⟩⟩

theorem WordSafe.nextWord : WordSafe RRset.nextWord (fun w => RRType.from_str w ≠ .ok .RRSIG) := by
  intro pre rest hu hw
  obtain ⟨mid, rest', h1, h2, h3, h4⟩ := read_str_spec (pre := pre) hu
  unfold RRset.nextWord
  rw [St.bind_ok h3]
  cases hh : (words rest).head? with
  | none => exact ⟨.err, _, _, rfl, by simp, fun _ h => by cases h⟩
  | some w =>
    refine ⟨.ok w, _, _, rfl, by simp, ?_⟩
    intro v hv; cases hv
    refine ⟨h2, ?_, hw w (List.mem_of_head? hh)⟩
    intro u hu'
    rw [h4] at hu'
    exact hw u (List.mem_of_mem_tail hu')

/-- the call does not panic on such a text -/
def WordQuiet {α : Type} (m : St StrBuf α) : Prop :=
  ∀ pre rest, isUtf8 rest = true → (∀ w ∈ words rest, RRType.from_str w ≠ .ok .RRSIG) → (m (cur pre rest)).1 ≠ .panic

theorem WordSafe.quiet {α β : Type} {m : St StrBuf α} {f : α → St StrBuf β} {P : α → Prop}
    (h1 : WordSafe m P) (h2 : ∀ a, P a → WordQuiet (f a)) : WordQuiet (m >>= f) := by
  intro pre rest hu ha
  obtain ⟨res, pre', rest', e, h3, h5⟩ := h1 pre rest hu ha
  cases res with
  | panic => exact absurd rfl h3
  | err => rw [St.bind_err e]; simp
  | ok a =>
    obtain ⟨k1, k2, k3⟩ := h5 a rfl
    rw [St.bind_ok e]
    exact h2 a k3 pre' rest' k1 k2

theorem WordSafe.parse (x : Ext) : WordQuiet (RRset.parse x) := by
  refine WordSafe.quiet WordSafe.nextWord (fun w _ => ?_)
  refine WordSafe.quiet (WordSafe.lift (P := fun _ => True) (Name.c04_new_limits_partial w).1 (fun _ _ => trivial)) (fun n _ => ?_)
  refine WordSafe.quiet WordSafe.nextWord (fun w _ => ?_)
  refine WordSafe.quiet (WordSafe.lift (P := fun _ => True) (parseNum_safe w) (fun _ _ => trivial)) (fun ttl _ => ?_)
  have hct : WordSafe RRset.classType (fun ct => ct.2 ≠ .RRSIG) := by
    refine WordSafe.bind WordSafe.nextWord (fun w hw => ?_)
    have short : WordSafe (do let t ← St.lift (RRType.from_str w); Pure.pure ((RRClass.IN, t) : RRClass × RRType)) (fun ct => ct.2 ≠ .RRSIG) :=
      WordSafe.bind (WordSafe.lift (P := fun t => t ≠ .RRSIG) (type_from_str_safe w) (fun v hv h => hw (by rw [hv, h]))) (fun t ht => WordSafe.pure ht)
    cases hc : RRClass.from_str w with
    | ok c =>
      exact WordSafe.bind WordSafe.nextWord (fun w hw =>
        WordSafe.bind (WordSafe.lift (P := fun t => t ≠ .RRSIG) (type_from_str_safe w) (fun v hv h => hw (by rw [hv, h]))) (fun t ht => WordSafe.pure ht))
    | err => exact short
    | panic => exact short
  refine WordSafe.quiet hct (fun ct hct => ?_)
  intro pre rest hu hw
  obtain ⟨res, pre', rest', e, h1, h2, h3⟩ := TextSafe.rdata (A := False) x ct.2 (fun h => absurd h hct) pre rest hu (fun h => h.elim)
  cases res with
  | panic => exact absurd rfl h1
  | err => rw [St.bind_err e]; simp
  | ok rd => rw [St.bind_ok e]; intro h; cases h

end R53
