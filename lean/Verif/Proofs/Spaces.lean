import Verif.Spec.Grammar
import Verif.Proofs.Std2
/-!
# White space of Unicode
-/
namespace R53

theorem ahead_char {u : List UInt8} (h : u ∈ spaceChars) (t : List UInt8) : spaceAhead (u ++ t) = u.length := by
  simp only [spaceChars, List.mem_cons, List.not_mem_nil, or_false] at h
  rcases h with rfl | rfl | rfl | rfl | rfl | rfl | rfl | rfl | rfl | rfl | rfl | rfl | rfl | rfl | rfl | rfl | rfl | rfl | rfl | rfl | rfl | rfl | rfl | rfl | rfl <;> rfl

theorem behind_char {u : List UInt8} (h : u ∈ spaceChars) (t : List UInt8) : spaceBehind (u.reverse ++ t) = u.length := by
  simp only [spaceChars, List.mem_cons, List.not_mem_nil, or_false] at h
  rcases h with rfl | rfl | rfl | rfl | rfl | rfl | rfl | rfl | rfl | rfl | rfl | rfl | rfl | rfl | rfl | rfl | rfl | rfl | rfl | rfl | rfl | rfl | rfl | rfl | rfl <;> rfl

theorem spaceChar_ascii : ∀ c : UInt8, isSpaceAscii c = true → [c] ∈ spaceChars := forall_u8' (by decide +kernel)

theorem spaceChar_wide : ∀ c : UInt8, ((0x80 ≤ c.toNat ∧ c.toNat ≤ 0x8A) ∨ c = 0xA8 ∨ c = 0xA9 ∨ c = 0xAF) → [0xE2, 0x80, c] ∈ spaceChars :=
  forall_u8' (by decide +kernel)

theorem ahead_mem {s : List UInt8} (h : spaceAhead s ≠ 0) : s.take (spaceAhead s) ∈ spaceChars := by
  cases s with
  | nil => exact absurd rfl h
  | cons c t =>
    by_cases hc : isSpaceAscii c = true
    · have e : spaceAhead (c :: t) = 1 := by rw [spaceAhead, if_pos hc]
      rw [e]
      exact spaceChar_ascii c hc
    · have e : spaceAhead (c :: t) = spaceAheadU (c :: t) := by rw [spaceAhead]; rw [if_neg hc]
      rw [e] at h ⊢
      generalize hs : c :: t = s at h ⊢
      clear hs e hc
      unfold spaceAheadU at h ⊢
      split at h
      · exact (by decide : [0xC2, 0x85] ∈ spaceChars)
      · exact (by decide : [0xC2, 0xA0] ∈ spaceChars)
      · exact (by decide : [0xE1, 0x9A, 0x80] ∈ spaceChars)
      · exact (by decide : [0xE2, 0x81, 0x9F] ∈ spaceChars)
      · exact (by decide : [0xE3, 0x80, 0x80] ∈ spaceChars)
      · split at h
        · rename_i hc
          rw [if_pos hc]
          exact spaceChar_wide _ hc
        · exact absurd rfl h
      · exact absurd rfl h

theorem behind_mem {s : List UInt8} (h : spaceBehind s ≠ 0) : (s.take (spaceBehind s)).reverse ∈ spaceChars := by
  cases s with
  | nil => exact absurd rfl h
  | cons c t =>
    by_cases hc : isSpaceAscii c = true
    · have e : spaceBehind (c :: t) = 1 := by rw [spaceBehind, if_pos hc]
      rw [e]
      exact spaceChar_ascii c hc
    · have e : spaceBehind (c :: t) = spaceBehindU (c :: t) := by rw [spaceBehind]; rw [if_neg hc]
      rw [e] at h ⊢
      generalize hs : c :: t = s at h ⊢
      clear hs e hc
      unfold spaceBehindU at h ⊢
      split at h
      · exact (by decide : [0xC2, 0x85] ∈ spaceChars)
      · exact (by decide : [0xC2, 0xA0] ∈ spaceChars)
      · exact (by decide : [0xE1, 0x9A, 0x80] ∈ spaceChars)
      · exact (by decide : [0xE2, 0x81, 0x9F] ∈ spaceChars)
      · exact (by decide : [0xE3, 0x80, 0x80] ∈ spaceChars)
      · split at h
        · rename_i hc
          rw [if_pos hc]
          exact spaceChar_wide _ hc
        · exact absurd rfl h
      · exact absurd rfl h

/-- what `dropSpaces` needs to know -/
structure Finds (ahead : List UInt8 → Nat) (L : List (List UInt8)) : Prop where
  char : ∀ u ∈ L, ∀ t, ahead (u ++ t) = u.length
  mem : ∀ s, ahead s ≠ 0 → s.take (ahead s) ∈ L
  ne : ∀ u ∈ L, u ≠ []

theorem finds_ahead : Finds spaceAhead spaceChars := ⟨fun _ h t => ahead_char h t, fun _ h => ahead_mem h, by decide⟩

theorem finds_behind : Finds spaceBehind (spaceChars.map List.reverse) := by
  refine ⟨?_, ?_, ?_⟩
  · intro u hu t
    obtain ⟨v, hv, rfl⟩ := List.mem_map.1 hu
    rw [behind_char hv, List.length_reverse]
  · intro s h
    exact List.mem_map.2 ⟨_, behind_mem h, List.reverse_reverse _⟩
  · decide

theorem Finds.zero {ahead : List UInt8 → Nat} {L : List (List UInt8)} (F : Finds ahead L) (s : List UInt8) :
    ahead s = 0 ↔ ∀ u ∈ L, ¬ u <+: s := by
  constructor
  · rintro h u hu ⟨t, rfl⟩
    rw [F.char u hu] at h
    exact F.ne u hu (List.length_eq_zero_iff.1 h)
  · intro h
    refine Classical.byContradiction fun hz => ?_
    exact h _ (F.mem s hz) (List.take_prefix _ _)

theorem Finds.drop {ahead : List UInt8 → Nat} {L : List (List UInt8)} (F : Finds ahead L) : ∀ (n : Nat) (s : List UInt8),
    (∃ us : List (List UInt8), (∀ u ∈ us, u ∈ L) ∧ s = us.flatten ++ dropSpaces ahead n s) ∧ (s.length ≤ n → ahead (dropSpaces ahead n s) = 0) := by
  intro n
  induction n with
  | zero =>
    intro s
    refine ⟨⟨[], by simp, by simp [dropSpaces]⟩, fun h => ?_⟩
    obtain rfl : s = [] := List.length_eq_zero_iff.1 (by omega)
    refine Classical.byContradiction fun hz => ?_
    have := F.mem _ hz
    simp only [dropSpaces, List.take_nil] at this
    exact F.ne _ this rfl
  | succ n ih =>
    intro s
    rw [dropSpaces]
    by_cases h : ahead s = 0
    · rw [if_pos h]
      exact ⟨⟨[], by simp, by simp⟩, fun _ => h⟩
    · rw [if_neg h]
      obtain ⟨⟨us, h1, h2⟩, h3⟩ := ih (s.drop (ahead s))
      refine ⟨⟨s.take (ahead s) :: us, ?_, ?_⟩, fun hl => h3 (by rw [List.length_drop]; omega)⟩
      · intro u hu
        rcases List.mem_cons.1 hu with rfl | hu
        · exact F.mem s h
        · exact h1 u hu
      · rw [List.flatten_cons, List.append_assoc, ← h2, List.take_append_drop]

theorem Finds.drop_all {ahead : List UInt8 → Nat} {L : List (List UInt8)} (F : Finds ahead L) {t : List UInt8} (ht : ahead t = 0) :
    ∀ (us : List (List UInt8)) (n : Nat), (∀ u ∈ us, u ∈ L) → us.flatten.length + t.length ≤ n → dropSpaces ahead n (us.flatten ++ t) = t := by
  intro us
  induction us with
  | nil =>
    intro n _ _
    cases n with
    | zero => rfl
    | succ n => rw [List.flatten_nil, List.nil_append, dropSpaces, if_pos ht]
  | cons u us ih =>
    intro n hu hn
    have hu1 := hu u (by simp)
    have hne := F.ne u hu1
    have hlen : 0 < u.length := List.length_pos_iff.2 hne
    rw [List.flatten_cons, List.length_append] at hn
    cases n with
    | zero => omega
    | succ n =>
      rw [List.flatten_cons, List.append_assoc, dropSpaces, F.char u hu1, if_neg (by omega), List.drop_left]
      exact ih n (fun v hv => hu v (List.mem_cons_of_mem _ hv)) (by omega)

/-- characters of white space start with an octet that is not a continuation; the others of their octets are continuations -/
theorem spaceChar_shape {u : List UInt8} (h : u ∈ spaceChars) : ∃ c t, u = c :: t ∧ isCont c = false ∧ ∀ x ∈ t, isCont x = true := by
  simp only [spaceChars, List.mem_cons, List.not_mem_nil, or_false] at h
  rcases h with rfl | rfl | rfl | rfl | rfl | rfl | rfl | rfl | rfl | rfl | rfl | rfl | rfl | rfl | rfl | rfl | rfl | rfl | rfl | rfl | rfl | rfl | rfl | rfl | rfl <;>
    exact ⟨_, _, rfl, by decide, by decide⟩

/-- white space behind a text makes no white space at its front -/
theorem no_space_append {t : List UInt8} (hne : t ≠ []) (h : ∀ c ∈ spaceChars, ¬ c <+: t) {ws : List (List UInt8)} (hw : ∀ w ∈ ws, w ∈ spaceChars) :
    ∀ c ∈ spaceChars, ¬ c <+: t ++ ws.flatten := by
  intro c hc hp
  have hflat : ∀ x, ws.flatten.head? = some x → isCont x = false := by
    intro x hx
    cases ws with
    | nil => simp at hx
    | cons w ws =>
      obtain ⟨y, v, rfl, h1, -⟩ := spaceChar_shape (hw w (by simp))
      simp at hx
      exact hx ▸ h1
  rcases Nat.lt_or_ge t.length c.length with hl | hl
  · obtain ⟨y, v, rfl, h1, h2⟩ := spaceChar_shape hc
    obtain ⟨r, hr⟩ := hp
    cases t with
    | nil => exact hne rfl
    | cons z t =>
      rw [List.cons_append, List.cons_append] at hr
      injection hr with _ hr
      rw [List.append_eq_append_iff] at hr
      rcases hr with ⟨q, rfl, hq⟩ | ⟨q, rfl, hq⟩
      · simp at hl; omega
      · cases q with
        | nil => simp at hl
        | cons q0 q =>
          have := hflat q0 (by rw [hq]; rfl)
          rw [h2 q0 (by simp)] at this
          cases this
  · exact h c hc (List.prefix_of_prefix_length_le hp (List.prefix_append _ _) hl)

theorem flatten_reverse (ws : List (List UInt8)) : ws.flatten.reverse = (ws.map List.reverse).reverse.flatten := by
  rw [List.reverse_flatten]

/-- `trim` is what it should be -/
theorem trim_iff (s t : List UInt8) : Trimmed s t ↔ t = trim s := by
  constructor
  · rintro ⟨us, ws, rfl, hu, hw, h1, h2⟩
    unfold trim
    by_cases hne : t = []
    · subst hne
      have : ∀ u ∈ us ++ ws, u ∈ spaceChars := by
        intro u h
        rcases List.mem_append.1 h with h | h
        · exact hu u h
        · exact hw u h
      have e : us.flatten ++ [] ++ ws.flatten = (us ++ ws).flatten ++ [] := by simp
      rw [e, finds_ahead.drop_all (t := []) rfl (us ++ ws) _ this (by rw [List.length_append]; exact Nat.le_refl _)]
      rfl
    · have e0 := finds_ahead.drop_all (t := t ++ ws.flatten) ((finds_ahead.zero _).2 (no_space_append hne h1 hw)) us
        (us.flatten ++ t ++ ws.flatten).length hu (by simp)
      rw [List.append_assoc] at e0 ⊢
      simp only [e0]
      have hz : spaceBehind t.reverse = 0 := by
        rw [finds_behind.zero]
        intro u hu' hp
        obtain ⟨c, hc, rfl⟩ := List.mem_map.1 hu'
        exact h2 c hc (List.reverse_prefix.1 hp)
      rw [List.reverse_append, flatten_reverse, finds_behind.drop_all hz, List.reverse_reverse]
      · intro u hu'
        rw [List.mem_reverse] at hu'
        obtain ⟨c, hc, rfl⟩ := List.mem_map.1 hu'
        exact List.mem_map.2 ⟨c, hw c hc, rfl⟩
      · rw [← flatten_reverse]
        simp; omega
  · rintro rfl
    obtain ⟨⟨us, u1, u2⟩, u3⟩ := finds_ahead.drop s.length s
    have u4 := u3 (Nat.le_refl _)
    have ht : trim s = (dropSpaces spaceBehind (dropSpaces spaceAhead s.length s).length (dropSpaces spaceAhead s.length s).reverse).reverse := rfl
    rw [ht]
    generalize dropSpaces spaceAhead s.length s = m at u2 u4
    obtain ⟨⟨ws, w1, w2⟩, w3⟩ := finds_behind.drop m.length m.reverse
    have w4 := w3 (by rw [List.length_reverse]; exact Nat.le_refl _)
    generalize dropSpaces spaceBehind m.length m.reverse = v at w2 w4
    have hm : m = v.reverse ++ (ws.map List.reverse).reverse.flatten := by
      rw [← flatten_reverse, ← List.reverse_append, ← w2, List.reverse_reverse]
    refine ⟨us, (ws.map List.reverse).reverse, ?_, u1, ?_, ?_, ?_⟩
    · rw [u2, List.append_assoc, ← hm]
    · intro w hw
      rw [List.mem_reverse] at hw
      obtain ⟨x, hx, rfl⟩ := List.mem_map.1 hw
      obtain ⟨y, hy, rfl⟩ := List.mem_map.1 (w1 x hx)
      rw [List.reverse_reverse]; exact hy
    · intro c hc hp
      refine (finds_ahead.zero m).1 u4 c hc ?_
      rw [hm]
      exact List.IsPrefix.trans hp (List.prefix_append _ _)
    · intro c hc hp
      refine (finds_behind.zero v).1 w4 c.reverse (List.mem_map.2 ⟨c, hc, rfl⟩) ?_
      rw [← List.reverse_suffix, List.reverse_reverse]
      exact hp

/-! ## White space inside -/

theorem strip_spaced : ∀ (n : Nat) (s : List UInt8), s.length ≤ n → Spaced s (Field.stripSpaces n s) := by
  intro n
  induction n with
  | zero =>
    intro s h
    obtain rfl : s = [] := List.length_eq_zero_iff.1 (by omega)
    exact .nil
  | succ n ih =>
    intro s h
    rw [Field.stripSpaces.eq_def]
    simp only
    by_cases hz : spaceAhead s ≠ 0
    · rw [if_pos hz]
      have := Spaced.space (ahead_mem hz) (ih (s.drop (spaceAhead s)) (by rw [List.length_drop]; omega))
      rwa [List.take_append_drop] at this
    · rw [if_neg hz]
      cases s with
      | nil => exact .nil
      | cons c t => exact .char (ih t (by simpa using h))

theorem visible_ahead : ∀ c : UInt8, 33 ≤ c ∧ c < 127 → isSpaceAscii c = false ∧ c ≠ 0xC2 ∧ c ≠ 0xE1 ∧ c ≠ 0xE2 ∧ c ≠ 0xE3 :=
  forall_u8' (by decide +kernel)

theorem spaceAhead_visible {c : UInt8} (h : 33 ≤ c ∧ c < 127) (t : List UInt8) : spaceAhead (c :: t) = 0 := by
  obtain ⟨h1, h2, h3, h4, h5⟩ := visible_ahead c h
  rw [finds_ahead.zero]
  rintro u hu ⟨r, hr⟩
  have : ∀ u ∈ spaceChars, ∀ x, u.head? = some x → isSpaceAscii x = true ∨ x = 0xC2 ∨ x = 0xE1 ∨ x = 0xE2 ∨ x = 0xE3 := by decide
  cases u with
  | nil => exact finds_ahead.ne _ hu rfl
  | cons x u =>
    injection hr with hr _
    subst hr
    rcases this _ hu x rfl with h | h | h | h | h
    · rw [h1] at h; cases h
    · exact h2 h
    · exact h3 h
    · exact h4 h
    · exact h5 h

theorem spaced_strip {s t : List UInt8} (h : Spaced s t) : (∀ c ∈ t, 33 ≤ c ∧ c < 127) → ∀ n, s.length ≤ n → Field.stripSpaces n s = t := by
  induction h with
  | nil =>
    intro _ n _
    cases n <;> rfl
  | @space u s t hu _ ih =>
    intro ht n hn
    have hne : 0 < u.length := List.length_pos_iff.2 (finds_ahead.ne u hu)
    rw [List.length_append] at hn
    cases n with
    | zero => omega
    | succ n =>
      rw [Field.stripSpaces.eq_def]
      simp only
      rw [ahead_char hu, if_pos (by omega), List.drop_left]
      exact ih ht n (by omega)
  | @char c s t _ ih =>
    intro ht n hn
    cases n with
    | zero => simp at hn
    | succ n =>
      rw [Field.stripSpaces.eq_def]
      simp only
      rw [spaceAhead_visible (ht c (by simp)), if_neg (by simp)]
      rw [ih (fun x hx => ht x (List.mem_cons_of_mem _ hx)) n (by simpa using hn)]

open StdText in
theorem base64_iff (s d : List UInt8) :
    decode64 (Field.stripSpaces s.length s) = some d ↔ ∃ t k, Spaced s t ∧ t ++ List.replicate k 61 = base64Text d := by
  constructor
  · intro h
    obtain ⟨q, h1, h2⟩ := decode64_inv _ _ d (Nat.le_refl _) h
    refine ⟨_, q.length, strip_spaced _ s (Nat.le_refl _), ?_⟩
    rw [← encode64_text, h1, ← List.eq_replicate_of_mem h2]
  · rintro ⟨t, k, hs, h⟩
    rw [← encode64_text] at h
    rw [spaced_strip hs (fun c hc => encode64_chars d c (by rw [← h]; simp [hc])) _ (Nat.le_refl _)]
    exact decode64_encode64 d t _ h.symm (fun c hc => List.eq_of_mem_replicate hc)

end R53
