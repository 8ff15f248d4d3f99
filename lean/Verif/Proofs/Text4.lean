import Verif.Proofs.Text3
import Verif.Proofs.NameText2
import Verif.Props.Codes
import Verif.Props.Hex
/-!
# Printing records and reading them back
-/
namespace R53

/-- a printed field: ASCII without control characters, no space at the ends -/
structure Neat (t : List UInt8) : Prop where
  ne : t ≠ []
  ascii : ∀ c ∈ t, 32 ≤ c ∧ c < 127
  head : ∀ c, t.head? = some c → c ≠ 32
  last : ∀ c, t.getLast? = some c → c ≠ 32

theorem Word.neat {t : List UInt8} (h : Word t) : Neat t := by
  have key : ∀ c : UInt8, 33 ≤ c ∧ c < 127 → 32 ≤ c ∧ c < 127 ∧ c ≠ 32 := by apply forall_u8'; decide +kernel
  refine ⟨h.1, fun c hc => ⟨(key c (h.2 c hc)).1, (key c (h.2 c hc)).2.1⟩, ?_, ?_⟩
  · intro c hc; exact (key c (h.2 c (List.mem_of_head? hc))).2.2
  · intro c hc; exact (key c (h.2 c (List.mem_of_getLast? hc))).2.2

theorem Word.notBlank {t : List UInt8} (h : Word t) : ∀ c ∈ t, ¬ Blank c := by
  have key : ∀ c : UInt8, 33 ≤ c ∧ c < 127 → ¬ Blank c := by apply forall_u8'; decide +kernel
  exact fun c hc => key c (h.2 c hc)

theorem Word.ascii {t : List UInt8} (h : Word t) : ∀ c ∈ t, c.toNat < 0x80 := by
  have key : ∀ c : UInt8, 33 ≤ c ∧ c < 127 → c.toNat < 0x80 := by apply forall_u8'; decide +kernel
  exact fun c hc => key c (h.2 c hc)

theorem Word.append {s t : List UInt8} (h1 : Word s) (h2 : Word t) : Word (s ++ t) := by
  refine ⟨by simp [h1.1], ?_⟩
  intro c hc
  rcases List.mem_append.1 hc with h | h
  · exact h1.2 c h
  · exact h2.2 c h

theorem digits_word {t : List UInt8} (h1 : t ≠ []) (h2 : ∀ c ∈ t, isAsciiDigit c = true) : Word t := by
  have key : ∀ c : UInt8, isAsciiDigit c = true → 33 ≤ c ∧ c < 127 := by apply forall_u8'; decide +kernel
  exact ⟨h1, fun c hc => key c (h2 c hc)⟩

theorem decimal_word (n : Nat) : Word (decimal n) := digits_word (decimal_digits n).1 (decimal_digits n).2

theorem type_word (t : RRType) : Word t.to_str := by
  have : t.to_str ≠ [] ∧ ∀ c ∈ t.to_str, 33 ≤ c ∧ c < 127 := by
    cases t <;> simp only [RRType.to_str] <;> decide +kernel
  exact this
theorem class_word (t : RRClass) : Word t.to_str := by
  have : t.to_str ≠ [] ∧ ∀ c ∈ t.to_str, 33 ≤ c ∧ c < 127 := by
    cases t <;> simp only [RRClass.to_str] <;> decide +kernel
  exact this

/-- a plain name prints as a word that reads back -/
theorem plainName_round {n : Name} (h : PlainName n) : ∃ t, n.to_string = .ok t ∧ Word t ∧ Name.new t = .ok n := by
  obtain ⟨ls, hv, rfl, hp⟩ := h
  refine ⟨_, Name.to_string_plain hv hp, ?_, Name.new_dotted hv hp⟩
  have key : ∀ c : UInt8, Plain c → 33 ≤ c ∧ c < 127 := by apply forall_u8'; decide +kernel
  by_cases h0 : ls = []
  · rw [if_pos h0]; exact ⟨by simp, by decide⟩
  · rw [if_neg h0]
    clear hv
    induction ls with
    | nil => exact absurd rfl h0
    | cons l ls ih =>
      have hw : ∀ c ∈ l ++ [46], 33 ≤ c ∧ c < 127 := by
        intro c hc
        rcases List.mem_append.1 hc with h | h
        · exact key c (hp l (by simp) c h)
        · simp only [List.mem_singleton] at h; subst h; decide
      have e : Name.dotted (l :: ls) = (l ++ [46]) ++ Name.dotted ls := by simp [Name.dotted]
      rw [e]
      by_cases h1 : ls = []
      · subst h1; exact ⟨by simp, by simpa [Name.dotted] using hw⟩
      · have := ih (fun l' hl => hp l' (by simp [hl])) h1
        exact ⟨by simp, fun c hc => (List.mem_append.1 hc).elim (hw c) (this.2 c)⟩

theorem hex_word {d s : List UInt8} (hd : d ≠ []) (h : Hex.to_hex d = .ok s) : Word s := by
  have key : ∀ x : UInt8, ∀ a c, idx Hex.CHARS (x >>> 4).toNat = .ok a → idx Hex.CHARS (x &&& 0xf).toNat = .ok c →
      (33 ≤ a ∧ a < 127) ∧ (33 ≤ c ∧ c < 127) := by
    intro x a c ha hc
    obtain ⟨a', c', e1, e2, e3, e4⟩ := Hex.chars_spec x
    rw [e1] at ha; cases ha
    rw [e2] at hc; cases hc
    have key2 : ∀ c : UInt8, ∀ v, HexSpec.val c = some v → 33 ≤ c ∧ c < 127 := by
      intro c v h
      have : ∀ c : UInt8, (HexSpec.val c).isSome = true → 33 ≤ c ∧ c < 127 := by apply forall_u8'; decide +kernel
      exact this c (by rw [h]; rfl)
    exact ⟨key2 _ _ e3, key2 _ _ e4⟩
  suffices hs : (d ≠ [] → s ≠ []) ∧ ∀ c ∈ s, 33 ≤ c ∧ c < 127 by
    exact ⟨hs.1 hd, hs.2⟩
  clear hd
  induction d generalizing s with
  | nil => simp only [Hex.to_hex] at h; cases h; simp
  | cons x d ih =>
    rw [Hex.to_hex] at h
    obtain ⟨a, ha, h⟩ := Res.bind_eq_ok.1 h
    obtain ⟨c, hc, h⟩ := Res.bind_eq_ok.1 h
    obtain ⟨r, hr, h⟩ := Res.bind_eq_ok.1 h
    cases h
    have h3 := key x a c ha hc
    have h4 := (ih hr).2
    refine ⟨by simp, ?_⟩
    intro y hy
    simp only [List.mem_cons] at hy
    rcases hy with h | h | h
    · exact h ▸ h3.1
    · exact h ▸ h3.2
    · exact h4 y h

/-! ## Spaces -/

theorem spaceAhead_ascii {c : UInt8} (h : c.toNat < 0x80) (t : List UInt8) :
    spaceAhead (c :: t) = if isSpaceAscii c then 1 else 0 := by
  rw [spaceAhead]
  split
  · rfl
  · unfold spaceAheadU
    split <;> first | rfl | (rename_i heq; simp only [List.cons.injEq] at heq; rw [heq.1] at h; exact absurd h (by decide))

theorem spaceBehind_ascii {c : UInt8} (h : c.toNat < 0x80) (t : List UInt8) :
    spaceBehind (c :: t) = if isSpaceAscii c then 1 else 0 := by
  rw [spaceBehind]
  split
  · rfl
  · unfold spaceBehindU
    split <;> first | rfl | (rename_i heq; simp only [List.cons.injEq] at heq; rw [heq.1] at h; revert h; decide) | skip
    rename_i heq
    simp only [List.cons.injEq] at heq
    rw [if_neg]
    rw [← heq.1]
    have key : ∀ c : UInt8, c.toNat < 0x80 → ¬ ((128 ≤ c.toNat ∧ c.toNat ≤ 138) ∨ c = 168 ∨ c = 169 ∨ c = 175) := by
      apply forall_u8'; decide +kernel
    exact key c h

theorem blank_space {c : UInt8} (h : Blank c) : isSpaceAscii c = true := by
  revert c; apply forall_u8'; decide +kernel
theorem visible_space {c : UInt8} (h : 33 ≤ c ∧ c < 127) : isSpaceAscii c = false ∧ c.toNat < 0x80 := by
  revert c; apply forall_u8'; decide +kernel

theorem stripSpaces_word : ∀ (t : List UInt8) (fuel : Nat), t.length ≤ fuel → (∀ c ∈ t, 33 ≤ c ∧ c < 127) →
    Field.stripSpaces fuel t = t := by
  intro t
  induction t with
  | nil => intro fuel _ _; cases fuel <;> simp [Field.stripSpaces, spaceAhead]
  | cons c t ih =>
    intro fuel hf h
    match fuel, hf with
    | fuel + 1, hf =>
      have hv := visible_space (h c (by simp))
      rw [Field.stripSpaces, spaceAhead_ascii hv.2, hv.1]
      simp only [Bool.false_eq_true, if_false, ne_eq, not_true_eq_false]
      rw [ih fuel (by simpa using hf) (fun x hx => h x (by simp [hx]))]

theorem stripSpaces_blanks : ∀ (w t : List UInt8) (fuel : Nat), (w ++ t).length ≤ fuel → (∀ c ∈ w, Blank c) →
    (∀ c ∈ t, 33 ≤ c ∧ c < 127) → Field.stripSpaces fuel (w ++ t) = t := by
  intro w
  induction w with
  | nil => intro t fuel hf _ ht; exact stripSpaces_word t fuel hf ht
  | cons c w ih =>
    intro t fuel hf hw ht
    match fuel, hf with
    | fuel + 1, hf =>
      have hc := hw c (by simp)
      rw [List.cons_append, Field.stripSpaces, spaceAhead_ascii (blank_ascii hc), blank_space hc]
      simp only [if_true, ne_eq, Nat.one_ne_zero, not_false_eq_true, List.drop_succ_cons, List.drop_zero]
      exact ih t fuel (by simpa using hf) (fun x hx => hw x (by simp [hx])) ht

/-- `trim` takes off the blanks around a text that starts and ends with a visible character -/
theorem trim_ends {t u w : List UInt8} (hne : t ≠ []) (hh : ∀ c, t.head? = some c → 33 ≤ c ∧ c < 127)
    (hl : ∀ c, t.getLast? = some c → 33 ≤ c ∧ c < 127) (hu : ∀ c ∈ u, Blank c) (hw : ∀ c ∈ w, Blank c) :
    trim (u ++ (t ++ w)) = t := by
  have h1 : ∀ s, spaceAhead (t ++ s) = 0 := by
    intro s
    match t, hne, hh with
    | c :: t, _, h =>
      have hv := visible_space (h c rfl)
      rw [List.cons_append, spaceAhead_ascii hv.2, hv.1]; rfl
  have h2 : spaceBehind t.reverse = 0 := by
    obtain ⟨u, c, rfl⟩ : ∃ u c, t = u ++ [c] := ⟨t.dropLast, t.getLast hne, (List.dropLast_concat_getLast hne).symm⟩
    have hv := visible_space (hl c (by simp))
    rw [List.reverse_append, List.reverse_singleton, List.singleton_append, spaceBehind_ascii hv.2, hv.1]; rfl
  have d0 : ∀ f s, f s = 0 → ∀ n, dropSpaces f n s = s := by
    intro f s hs n
    cases n with
    | zero => rfl
    | succ n => rw [dropSpaces, if_pos hs]
  have d1 : ∀ (u s : List UInt8), (∀ c ∈ u, Blank c) → spaceAhead s = 0 → ∀ n, u.length ≤ n → dropSpaces spaceAhead n (u ++ s) = s := by
    intro u
    induction u with
    | nil => intro s _ hs n _; exact d0 _ _ hs n
    | cons c u ih =>
      intro s hu hs n hn
      match n, hn with
      | n + 1, hn =>
        have hc := hu c (by simp)
        rw [List.cons_append, dropSpaces, spaceAhead_ascii (blank_ascii hc), blank_space hc]
        simp only [if_true, Nat.one_ne_zero, if_false, List.drop_succ_cons, List.drop_zero]
        exact ih s (fun x hx => hu x (by simp [hx])) hs n (by simpa using hn)
  have d2 : ∀ (u s : List UInt8), (∀ c ∈ u, Blank c) → spaceBehind s = 0 → ∀ n, u.length ≤ n → dropSpaces spaceBehind n (u ++ s) = s := by
    intro u
    induction u with
    | nil => intro s _ hs n _; exact d0 _ _ hs n
    | cons c u ih =>
      intro s hu hs n hn
      match n, hn with
      | n + 1, hn =>
        have hc := hu c (by simp)
        rw [List.cons_append, dropSpaces, spaceBehind_ascii (blank_ascii hc), blank_space hc]
        simp only [if_true, Nat.one_ne_zero, if_false, List.drop_succ_cons, List.drop_zero]
        exact ih s (fun x hx => hu x (by simp [hx])) hs n (by simpa using hn)
  unfold trim
  simp only
  rw [d1 u _ hu (h1 w) _ (by simp)]
  rw [List.reverse_append]
  rw [d2 w.reverse _ (by intro c hc; exact hw c (by simpa using hc)) h2 _ (by simp)]
  rw [List.reverse_reverse]

/-! ## Fields -/

namespace Field
open StrBuf

theorem read_word {α : Type} {parse : List UInt8 → Res α} {v : α} {pre w t r : List UInt8} (hw : ∀ c ∈ w, Blank c) (ht : Word t)
    (hr : ∀ c, r.head? = some c → Blank c) (hp : parse t = .ok v) :
    StrBuf.read parse (cur pre (w ++ (t ++ r))) = (.ok v, cur (pre ++ w ++ t) r) := by
  unfold StrBuf.read
  rw [St.bind_ok (read_str_word hw ht.1 ht.notBlank hr (isUtf8_ascii ht.ascii))]
  simp only [hp]
  rfl

/-- the kinds that read all that is left -/
def takesAll : Disp → Bool
  | .text => true
  | .base64 => true
  | _ => false

theorem map_ok {α β : Type} {σ : Type} {m : St σ α} {f : α → β} {s s' : σ} {a : α} (h : m s = (.ok a, s')) :
    (do pure (f (← m)) : St σ β) s = (.ok (f a), s') := by
  rw [St.bind_ok h]; rfl

theorem string_neat {d : List UInt8} : Neat (string_to_str d) := by
  refine ⟨by simp [string_to_str], string_to_str_ascii d, ?_, ?_⟩
  · intro c hc; simp [string_to_str] at hc; subst hc; decide
  · intro c hc
    rw [string_to_str, List.getLast?_append] at hc
    simp at hc; subst hc; decide

theorem text_neat {ds : List (List UInt8)} (h : ds ≠ []) : Neat (text_to_str ds) := by
  induction ds with
  | nil => exact absurd rfl h
  | cons d ds ih =>
    rw [text_to_str]
    by_cases h0 : ds = []
    · subst h0; rw [text_to_str, List.append_nil]; exact string_neat
    · have h1 := ih h0
      have h2 := string_neat (d := d)
      refine ⟨by simp [h1.ne], ?_, ?_, ?_⟩
      · intro c hc
        rcases List.mem_append.1 hc with h | h
        · exact h2.ascii c h
        · exact h1.ascii c h
      · intro c hc
        rw [List.head?_append] at hc
        apply h2.head
        cases hh : (string_to_str d).head? with
        | none => simp [string_to_str] at hh
        | some x => rw [hh] at hc; simpa using hc
      · intro c hc
        rw [List.getLast?_append] at hc
        apply h1.last
        cases hh : (text_to_str ds).getLast? with
        | none => rw [List.getLast?_eq_none_iff] at hh; exact absurd hh h1.ne
        | some x => rw [hh] at hc; simpa using hc

/-- a printed field reads back -/
theorem field_round {x : Ext} (hx : x.Laws) (k : Disp) (v : FieldVal) (h : v.Printable k) :
    ∃ t, to_str x k v = .ok t ∧ Neat t ∧ ∀ pre w r, (∀ c ∈ w, Blank c) → (∀ c, r.head? = some c → Blank c) →
      (takesAll k = true → r = []) → from_str x k (cur pre (w ++ (t ++ r))) = (.ok v, cur (pre ++ w ++ t) r) := by
  match k, v, h with
  | .name, .name n, h =>
    obtain ⟨t, h1, h2, h3⟩ := plainName_round h
    exact ⟨t, h1, h2.neat, fun pre w r hw hr _ => map_ok (read_word hw h2 hr h3)⟩
  | .ipv4, .ip o, h =>
    obtain ⟨h1, h2⟩ := hx.v4 o h
    exact ⟨_, rfl, h1.neat, fun pre w r hw hr _ => map_ok (read_word hw h1 hr (by rw [h2]; rfl))⟩
  | .ipv6, .ip o, h =>
    obtain ⟨h1, h2⟩ := hx.v6 o h
    exact ⟨_, rfl, h1.neat, fun pre w r hw hr _ => map_ok (read_word hw h1 hr (by rw [h2]; rfl))⟩
  | .u8, .u8 v, _ =>
    refine ⟨_, rfl, (decimal_word _).neat, fun pre w r hw hr _ => ?_⟩
    have := map_ok (f := fun n => FieldVal.u8 (UInt8.ofNat n)) (read_word (pre := pre) hw (decimal_word v.toNat) hr
      (parseNum_decimal (max := 255) v.toNat (by have := v.toNat_lt; omega)))
    simp only [UInt8.ofNat_toNat] at this
    exact this
  | .u16, .u16 v, _ =>
    refine ⟨_, rfl, (decimal_word _).neat, fun pre w r hw hr _ => ?_⟩
    have := map_ok (f := fun n => FieldVal.u16 (UInt16.ofNat n)) (read_word (pre := pre) hw (decimal_word v.toNat) hr
      (parseNum_decimal (max := 65535) v.toNat (by have := v.toNat_lt; omega)))
    simp only [UInt16.ofNat_toNat] at this
    exact this
  | .u32, .u32 v, _ =>
    refine ⟨_, rfl, (decimal_word _).neat, fun pre w r hw hr _ => ?_⟩
    have := map_ok (f := fun n => FieldVal.u32 (UInt32.ofNat n)) (read_word (pre := pre) hw (decimal_word v.toNat) hr
      (parseNum_decimal (max := 4294967295) v.toNat (by have := v.toNat_lt; omega)))
    simp only [UInt32.ofNat_toNat] at this
    exact this
  | .rrtype, .rrtype t, h =>
    exact ⟨_, rfl, (type_word t).neat, fun pre w r hw hr _ => map_ok (read_word hw (type_word t) hr (c31_type_partial t h.1 h.2 _ rfl))⟩
  | .timestamp, .u32 v, _ =>
    obtain ⟨h1, h2⟩ := timestamp_round v
    have hw0 : Word (Cal.format v) := digits_word (by simp [Cal.format, Cal.two]) h2
    exact ⟨_, rfl, hw0.neat, fun pre w r hw hr _ => map_ok (read_word hw hw0 hr h1)⟩
  | .string, .bytes d, h =>
    refine ⟨_, rfl, string_neat, fun pre w r hw hr _ => ?_⟩
    have hok : (CharStr.mk w (d.flatMap char_to_str) d).OK := ⟨hw, flatMap_quoted d, h.1, h.2⟩
    have e : (CharStr.mk w (d.flatMap char_to_str) d).text = w ++ string_to_str d := by simp [CharStr.text, string_to_str]
    have := read_char_string_ok (pre := pre) (r := r) hok
    rw [e] at this
    simp only [List.append_assoc] at this ⊢
    exact map_ok this
  | .text, .text ds, h =>
    refine ⟨_, rfl, text_neat h.1, fun pre w r hw hr ha => ?_⟩
    have := ha rfl
    subst this
    match ds, h with
    | d :: ds, h =>
      have hok : ∀ s ∈ (CharStr.mk w (d.flatMap char_to_str) d) :: ds.map printed, s.OK := by
        intro s hs
        rcases List.mem_cons.1 hs with e | e
        · subst e; exact ⟨hw, flatMap_quoted d, (h.2 d (by simp)).1, (h.2 d (by simp)).2⟩
        · obtain ⟨d', hd', rfl⟩ := List.mem_map.1 e
          exact printed_ok (h.2 d' (by simp [hd'])).1 (h.2 d' (by simp [hd'])).2
      have e : ((CharStr.mk w (d.flatMap char_to_str) d) :: ds.map printed).flatMap CharStr.text = w ++ (text_to_str (d :: ds) ++ []) := by
        rw [List.flatMap_cons, ← text_to_str_eq, text_to_str]
        simp [CharStr.text, string_to_str]
      have e2 : ((CharStr.mk w (d.flatMap char_to_str) d) :: ds.map printed).map CharStr.octets = d :: ds := by
        simp [Function.comp_def, printed]
      have := read_text_ok (pre := pre) (by simp) hok
      rw [e, e2] at this
      have h3 := map_ok (f := FieldVal.text) this
      simp only [List.append_assoc, List.append_nil] at h3 ⊢
      exact h3
    | [], h => exact absurd rfl h.1
  | .binary, .bytes d, h =>
    obtain ⟨s, h1, h2, h3⟩ := Hex.c23_to_hex d
    have hw0 : Word s := hex_word h h1
    exact ⟨s, h1, hw0.neat, fun pre w r hw hr _ => map_ok (read_word hw hw0 hr (by rw [Hex.c23_round_trip d s h1]; rfl))⟩
  | .base64, .bytes d, h =>
    obtain ⟨h1, h2⟩ := hx.b64 d h
    refine ⟨_, rfl, h1.neat, fun pre w r hw hr ha => ?_⟩
    have := ha rfl
    subst this
    simp only [List.append_nil]
    show base64_from_str x _ = _
    unfold base64_from_str
    have hu : isUtf8 (w ++ x.encode64 d) = true := by
      rw [isUtf8_ascii_append (fun c hc => blank_ascii (hw c hc))]; exact isUtf8_ascii h1.ascii
    rw [St.bind_ok (read_left_spec hu), if_neg (by simp [h1.1])]
    simp only
    rw [stripSpaces_blanks _ _ _ (Nat.le_refl _) hw h1.2, h2]
    simp only [Res.ofOption]
    simp [St.bind_apply]

/-- only the last field reads all that is left -/
def lastOnly : List (Codec × Disp) → Bool
  | [] => true
  | [_] => true
  | c :: cs => !takesAll c.2 && lastOnly cs

theorem schema_lastOnly {t : RRType} {cs : List (Codec × Disp)} (h : schema t = some cs) : lastOnly cs = true ∧ cs ≠ [] := by
  cases t <;> simp only [schema] at h <;> first | (cases h; decide) | contradiction

theorem _root_.R53.Neat.join {s t : List UInt8} (h1 : Neat s) (h2 : Neat t) : Neat (s ++ [32] ++ t) := by
  refine ⟨by simp, ?_, ?_, ?_⟩
  · intro c hc
    simp only [List.mem_append, List.mem_singleton] at hc
    rcases hc with (h | h) | h
    · exact h1.ascii c h
    · subst h; decide
    · exact h2.ascii c h
  · intro c hc
    apply h1.head
    match s, h1 with
    | x :: s, _ => simpa using hc
    | [], h1 => exact absurd rfl h1.ne
  · intro c hc
    rw [List.getLast?_append] at hc
    apply h2.last
    cases hh : t.getLast? with
    | none => rw [List.getLast?_eq_none_iff] at hh; exact absurd hh h2.ne
    | some x => rw [hh] at hc; simpa using hc

theorem all_round {x : Ext} (hx : x.Laws) : ∀ (cs : List (Codec × Disp)) (vs : List FieldVal), cs ≠ [] → lastOnly cs = true →
    FieldsPrintable cs vs → ∃ t, allToStr x cs vs = .ok t ∧ Neat t ∧ ∀ pre w, (∀ c ∈ w, Blank c) →
      allFromStr x cs (cur pre (w ++ t)) = (.ok vs, cur (pre ++ w ++ t) []) := by
  intro cs
  induction cs with
  | nil => intro vs h; exact absurd rfl h
  | cons c cs ih =>
    intro vs _ hl hp
    match vs, hp with
    | v :: vs, hp =>
      obtain ⟨t, h1, h2, h3⟩ := field_round hx c.2 v hp.1
      by_cases h0 : cs = []
      · subst h0
        have hvs : vs = [] := by
          match vs, hp.2 with
          | [], _ => rfl
        subst hvs
        refine ⟨t, ?_, h2, ?_⟩
        · rw [allToStr, h1]; rfl
        · intro pre w hw
          rw [allFromStr]
          have := h3 pre w [] hw (by simp) (fun _ => rfl)
          rw [List.append_nil] at this
          rw [St.bind_ok this]
          rfl
      · have hl2 : takesAll c.2 = false ∧ lastOnly cs = true := by
          match cs, h0 with
          | c2 :: cs, _ => simpa [lastOnly] using hl
        obtain ⟨t2, g1, g2, g3⟩ := ih vs h0 hl2.2 hp.2
        refine ⟨t ++ [32] ++ t2, ?_, h2.join g2, ?_⟩
        · rw [allToStr, h1, Res.bind_ok, if_neg h0, g1]; rfl
        · intro pre w hw
          rw [allFromStr]
          have := h3 pre w ([32] ++ t2) hw (by intro c hc; simp at hc; subst hc; decide) (by simp [hl2.1])
          simp only [List.append_assoc] at this ⊢
          rw [St.bind_ok this]
          have := g3 (pre ++ (w ++ t)) [32] (by intro c hc; simp at hc; subst hc; decide)
          rw [St.bind_ok this]
          simp

end Field

/-! ## Records -/

open StrBuf in
theorem RData.round {x : Ext} (hx : x.Laws) {rd : RData} (h : rd.Printable) :
    ∃ t, rd.to_str x = .ok t ∧ Neat t ∧ ∀ pre w, (∀ c ∈ w, Blank c) →
      RData.from_string_buffer x rd.kind (cur pre (w ++ t)) = (.ok rd, cur (pre ++ w ++ t) []) := by
  obtain ⟨cs, h1, h2⟩ := h
  obtain ⟨k1, k2⟩ := Field.schema_lastOnly h1
  obtain ⟨t, g1, g2, g3⟩ := Field.all_round hx cs rd.fields k2 k1 h2
  refine ⟨t, ?_, g2, ?_⟩
  · unfold RData.to_str; rw [h1]; exact g1
  · intro pre w hw
    unfold RData.from_string_buffer
    rw [h1]
    simp only
    rw [St.bind_ok (g3 pre w hw)]
    rfl

end R53

namespace R53.RRset
open StrBuf

theorem nextWord_word {pre w t r : List UInt8} (hw : ∀ c ∈ w, Blank c) (ht : Word t) (hr : ∀ c, r.head? = some c → Blank c) :
    nextWord (cur pre (w ++ (t ++ r))) = (.ok t, cur (pre ++ w ++ t) r) := by
  unfold nextWord
  rw [St.bind_ok (read_str_word hw ht.1 ht.notBlank hr (isUtf8_ascii ht.ascii))]
  rfl

/-- the class may be left out: it is read as IN -/
theorem classType_full {pre w1 w2 r : List UInt8} {c : RRClass} {t : RRType} {ct tt : List UInt8}
    (h1 : ∀ c ∈ w1, Blank c) (h2 : ∀ c ∈ w2, Blank c) (h3 : w2 ≠ []) (hr : ∀ c, r.head? = some c → Blank c)
    (hc : Word ct) (hc2 : RRClass.from_str ct = .ok c) (ht : Word tt) (ht2 : RRType.from_str tt = .ok t) :
    classType (cur pre (w1 ++ (ct ++ (w2 ++ (tt ++ r))))) = (.ok (c, t), cur (pre ++ w1 ++ ct ++ w2 ++ tt) r) := by
  unfold classType
  rw [St.bind_ok (nextWord_word h1 hc (r := w2 ++ (tt ++ r)) (by
    intro c hc
    match w2, h3 with
    | x :: w2, _ => simp at hc; subst hc; exact h2 x (by simp)))]
  simp only [hc2]
  rw [St.bind_ok (nextWord_word h2 ht hr), St.lift_ok_bind ht2]
  rfl

theorem classType_short {pre w1 r : List UInt8} {t : RRType} {tt : List UInt8}
    (h1 : ∀ c ∈ w1, Blank c) (hr : ∀ c, r.head? = some c → Blank c)
    (ht : Word tt) (hn : RRClass.from_str tt = .err) (ht2 : RRType.from_str tt = .ok t) :
    classType (cur pre (w1 ++ (tt ++ r))) = (.ok (.IN, t), cur (pre ++ w1 ++ tt) r) := by
  unfold classType
  rw [St.bind_ok (nextWord_word h1 ht hr)]
  simp only [hn]
  rw [St.lift_ok_bind ht2]
  rfl

theorem _root_.R53.Gap.head {w r : List UInt8} (h : Gap w) : ∀ c, (w ++ r).head? = some c → Blank c := by
  intro c hc
  match w, h with
  | x :: w, h => simp at hc; subst hc; exact h.2 x (by simp)
  | [], h => exact absurd rfl h.1

/-- a record in text with any blanks between the parts -/
theorem parse_words {x : Ext} (hx : x.Laws) {n : Name} {ttl : UInt32} {c : RRClass} {rd : RData} {nt lt ct tt dt g1 g2 g3 g4 : List UInt8}
    (hn : Word nt) (hn2 : Name.new nt = .ok n) (hl : Word lt) (hl2 : parseNum 4294967295 lt = .ok ttl.toNat)
    (hc : Word ct) (hc2 : RRClass.from_str ct = .ok c) (ht : Word tt) (ht2 : RRType.from_str tt = .ok rd.kind)
    (hd : rd.Printable) (hd2 : rd.to_str x = .ok dt) (h1 : Gap g1) (h2 : Gap g2) (h3 : Gap g3) (h4 : Gap g4) :
    ∃ b, parse x (cur [] (nt ++ (g1 ++ (lt ++ (g2 ++ (ct ++ (g3 ++ (tt ++ (g4 ++ dt))))))))) = (.ok ⟨n, rd.kind, c, ttl, [rd]⟩, b) := by
  obtain ⟨dt', e1, e2, e3⟩ := RData.round hx hd
  rw [hd2] at e1; cases e1
  unfold parse
  have a1 := nextWord_word (pre := []) (w := []) (t := nt) (r := g1 ++ (lt ++ (g2 ++ (ct ++ (g3 ++ (tt ++ (g4 ++ dt))))))) (by simp) hn h1.head
  rw [List.nil_append] at a1
  rw [St.bind_ok a1, St.lift_ok_bind hn2]
  rw [St.bind_ok (nextWord_word h1.2 hl h2.head), St.lift_ok_bind hl2]
  rw [St.bind_ok (classType_full h2.2 h3.2 h3.1 h4.head hc hc2 ht ht2)]
  rw [St.bind_ok (e3 _ g4 h4.2)]
  exact ⟨_, by simp; rfl⟩

theorem parse_words_short {x : Ext} (hx : x.Laws) {n : Name} {ttl : UInt32} {rd : RData} {nt lt tt dt g1 g2 g4 : List UInt8}
    (hn : Word nt) (hn2 : Name.new nt = .ok n) (hl : Word lt) (hl2 : parseNum 4294967295 lt = .ok ttl.toNat)
    (ht : Word tt) (hc : RRClass.from_str tt = .err) (ht2 : RRType.from_str tt = .ok rd.kind)
    (hd : rd.Printable) (hd2 : rd.to_str x = .ok dt) (h1 : Gap g1) (h2 : Gap g2) (h4 : Gap g4) :
    ∃ b, parse x (cur [] (nt ++ (g1 ++ (lt ++ (g2 ++ (tt ++ (g4 ++ dt))))))) = (.ok ⟨n, rd.kind, .IN, ttl, [rd]⟩, b) := by
  obtain ⟨dt', e1, e2, e3⟩ := RData.round hx hd
  rw [hd2] at e1; cases e1
  unfold parse
  have a1 := nextWord_word (pre := []) (w := []) (t := nt) (r := g1 ++ (lt ++ (g2 ++ (tt ++ (g4 ++ dt))))) (by simp) hn h1.head
  rw [List.nil_append] at a1
  rw [St.bind_ok a1, St.lift_ok_bind hn2]
  rw [St.bind_ok (nextWord_word h1.2 hl h2.head), St.lift_ok_bind hl2]
  rw [St.bind_ok (classType_short h2.2 h4.head ht hc ht2)]
  rw [St.bind_ok (e3 _ g4 h4.2)]
  exact ⟨_, by simp; rfl⟩

end R53.RRset
