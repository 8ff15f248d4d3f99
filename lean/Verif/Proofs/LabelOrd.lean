import Verif.Proofs.Signed
/-!
# The order of labels by signed octets

With overflow checks the comparison of labels either panics or computes this order, so a domain tree of any names is sorted by it.
-/
namespace R53
open LabelSlice (AsciiLabel bytesDiff relSpec mismatch truncI8 truncI8_small)

theorem compare_int (p q : Int) : compare p q = if p < q then .lt else if p = q then .eq else .gt := rfl

theorem compare_int_swap (p q : Int) : compare q p = (compare p q).swap := by
  rw [compare_int, compare_int]
  (repeat' split) <;> first | rfl | omega

theorem compare_int_eq (p q : Int) : compare p q = .eq ↔ p = q := by
  rw [compare_int]
  (repeat' split) <;> simp <;> omega

theorem compare_int_lt (p q : Int) : compare p q = .lt ↔ p < q := by
  rw [compare_int]
  (repeat' split) <;> simp <;> omega

theorem signed_inj {x y : UInt8} (h : signed x = signed y) : x = y := by
  unfold signed at h
  have := x.toNat_lt
  have := y.toNat_lt
  apply UInt8.toNat_inj.mp
  split at h <;> split at h <;> omega

theorem cmpSigned_swap (a b : Label) : cmpSigned b a = (cmpSigned a b).swap := by
  induction a generalizing b with
  | nil => cases b <;> rfl
  | cons x a ih =>
    cases b with
    | nil => rfl
    | cons y b =>
      simp only [cmpSigned, ih b, Ordering.swap_then]
      rw [compare_int_swap]

theorem cmpSigned_eq_iff (a b : Label) : cmpSigned a b = .eq ↔ lowerLabel a = lowerLabel b := by
  induction a generalizing b with
  | nil => cases b <;> simp [cmpSigned, lowerLabel]
  | cons x a ih =>
    cases b with
    | nil => simp [cmpSigned, lowerLabel]
    | cons y b =>
      simp only [cmpSigned, Ordering.then_eq_eq, ih, lowerLabel, List.map_cons, List.cons.injEq, compare_int_eq]
      constructor
      · rintro ⟨h1, h2⟩; exact ⟨signed_inj h1, h2⟩
      · rintro ⟨h1, h2⟩; exact ⟨by rw [h1], h2⟩

theorem cmpSigned_lt_trans (a b c : Label) (h1 : cmpSigned a b = .lt) (h2 : cmpSigned b c = .lt) : cmpSigned a c = .lt := by
  induction a generalizing b c with
  | nil =>
    cases c with
    | nil => cases b <;> simp [cmpSigned] at h1 h2
    | cons => rfl
  | cons x a ih =>
    cases b with
    | nil => simp [cmpSigned] at h1
    | cons y b =>
      cases c with
      | nil => simp [cmpSigned] at h2
      | cons z c =>
        simp only [cmpSigned, Ordering.then_eq_lt, compare_int_lt, compare_int_eq] at *
        rcases h1 with h1 | ⟨h1, h1'⟩ <;> rcases h2 with h2 | ⟨h2, h2'⟩
        · left; omega
        · left; omega
        · left; omega
        · right; exact ⟨by omega, ih b c h1' h2'⟩

theorem cmpSigned_eq_left (a b c : Label) (h : lowerLabel a = lowerLabel b) : cmpSigned a c = cmpSigned b c := by
  induction a generalizing b c with
  | nil => cases b with
    | nil => rfl
    | cons => simp [lowerLabel] at h
  | cons x a ih =>
    cases b with
    | nil => simp [lowerLabel] at h
    | cons y b =>
      simp only [lowerLabel, List.map_cons, List.cons.injEq] at h
      cases c with
      | nil => rfl
      | cons z c => simp only [cmpSigned, h.1, ih b c h.2]

theorem cmpSigned_eq_right (a b c : Label) (h : lowerLabel a = lowerLabel b) : cmpSigned c a = cmpSigned c b := by
  rw [cmpSigned_swap a c, cmpSigned_swap b c, cmpSigned_eq_left a b c h]

theorem cmpSigned_ascii (a b : Label) (ha : AsciiLabel a) (hb : AsciiLabel b) : cmpSigned a b = cmpLabel a b := by
  induction a generalizing b with
  | nil => cases b <;> rfl
  | cons x a ih =>
    cases b with
    | nil => rfl
    | cons y b =>
      have h1 := lowerByte_lt128 x (ha x (by simp))
      have h2 := lowerByte_lt128 y (hb y (by simp))
      simp only [cmpSigned, cmpLabel]
      rw [ih b (fun c hc => ha c (by simp [hc])) (fun c hc => hb c (by simp [hc]))]
      congr 1
      unfold signed
      rw [if_pos h1, if_pos h2, compare_int]
      rw [show compare (lowerByte x).toNat (lowerByte y).toNat = if (lowerByte x).toNat < (lowerByte y).toNat then Ordering.lt else if (lowerByte x).toNat = (lowerByte y).toNat then .eq else .gt from rfl]
      (repeat' split) <;> first | rfl | omega

theorem labelOrder_signed (a b : Label) : labelOrder signedOrder a b = some (cmpSigned a b) := by
  induction a generalizing b with
  | nil => cases b <;> rfl
  | cons x a ih =>
    cases b with
    | nil => rfl
    | cons y b =>
      simp only [labelOrder, cmpSigned, signedOrder]
      cases e : compare (signed (lowerByte x)) (signed (lowerByte y)) with
      | eq => simp only [Ordering.then]; exact ih b
      | lt => rfl
      | gt => rfl

/-- with overflow checks: a panic, or the sign of the first difference is the order of signed octets -/
theorem relSpec_signed (x y : Label) (as bs : List Label) (n : Nat) (hla : (x :: as).length ≤ 128) (hlb : (y :: bs).length ≤ 128)
    (h63a : ∀ l ∈ x :: as, l.length ≤ 63) (h63b : ∀ l ∈ y :: bs, l.length ≤ 63) {r : NameComparisonResult}
    (h : relSpec .debug (x :: as) (y :: bs) n = .ok r) (hxy : lowerLabel x ≠ lowerLabel y) :
    r.order < 0 ∧ cmpSigned x y = .lt ∨ ¬ r.order < 0 ∧ cmpSigned x y = .gt := by
  have hs := list_spec .debug (x :: as) (y :: bs) n hla hlb (.inl ⟨by simp, by simp⟩) h63a h63b
  cases ho : listOrder (diffOrder (checks .debug)) (x :: as) (y :: bs) with
  | none => rw [ho] at hs; simp only at hs; rw [hs] at h; cases h
  | some o =>
    rw [ho] at hs
    obtain ⟨r', h1, h2⟩ := hs
    rw [h] at h1
    cases h1
    have h3 := list_checked (show listOrder (diffOrder true) (x :: as) (y :: bs) = some o from ho)
    unfold listOrder at h3
    rw [labelOrder_signed] at h3
    have hne : cmpSigned x y ≠ .eq := fun e => hxy ((cmpSigned_eq_iff x y).1 e)
    unfold signOf at h2
    cases hc : cmpSigned x y with
    | eq => exact absurd hc hne
    | lt =>
      rw [hc] at h3; cases h3
      left
      refine ⟨?_, rfl⟩
      split at h2
      · assumption
      · split at h2 <;> simp at h2
    | gt =>
      rw [hc] at h3; cases h3
      right
      refine ⟨?_, rfl⟩
      split at h2
      · simp at h2
      · assumption

theorem near_nil (a : Label) : Near a [] ∧ Near [] a := by
  constructor
  · intro p x y as bs _ h; simp [lowerLabel] at h
  · intro p x y as bs h; simp [lowerLabel] at h

theorem near_cons {x y : UInt8} {a b : Label} : Near (x :: a) (y :: b) ↔
    (-128 ≤ signed (lowerByte x) - signed (lowerByte y) ∧ signed (lowerByte x) - signed (lowerByte y) ≤ 127) ∧ (lowerByte x = lowerByte y → Near a b) := by
  constructor
  · intro h
    refine ⟨h [] _ _ (lowerLabel a) (lowerLabel b) rfl rfl, fun e p u v as bs ha hb => ?_⟩
    exact h (lowerByte x :: p) u v as bs (by rw [List.cons_append, ← ha]; rfl) (by rw [List.cons_append, ← hb, e]; rfl)
  · rintro ⟨h1, h2⟩ p u v as bs ha hb
    cases p with
    | nil =>
      simp only [lowerLabel, List.map_cons, List.nil_append, List.cons.injEq] at ha hb
      rw [← ha.1, ← hb.1]; exact h1
    | cons c p =>
      simp only [lowerLabel, List.map_cons, List.cons_append, List.cons.injEq] at ha hb
      exact h2 (ha.1.trans hb.1.symm) p u v as bs ha.2 hb.2

theorem near_iff (a b : Label) : labelOrder (diffOrder true) a b ≠ none ↔ Near a b := by
  induction a generalizing b with
  | nil => cases b <;> simp [labelOrder, (near_nil _).2]
  | cons x a ih =>
    cases b with
    | nil => simp [labelOrder, (near_nil _).1]
    | cons y b =>
      rw [near_cons, ← ih b, labelOrder]
      rcases Decidable.em (-128 ≤ signed (lowerByte x) - signed (lowerByte y) ∧ signed (lowerByte x) - signed (lowerByte y) ≤ 127) with h | h
      · have e1 : diffOrder true (lowerByte x) (lowerByte y) = some (compare (signed (lowerByte x)) (signed (lowerByte y))) := by unfold diffOrder; rw [if_pos h]
        rw [e1]
        rcases Decidable.em (lowerByte x = lowerByte y) with e | e
        · rw [show compare (signed (lowerByte x)) (signed (lowerByte y)) = .eq from (compare_int_eq _ _).2 (by rw [e])]
          simp [h, e]
        · cases ho : compare (signed (lowerByte x)) (signed (lowerByte y)) with
          | eq => exact absurd (signed_inj ((compare_int_eq _ _).1 ho)) e
          | lt => simp [h, e]
          | gt => simp [h, e]
      · have e1 : diffOrder true (lowerByte x) (lowerByte y) = none := by unfold diffOrder; rw [if_neg h]; rfl
        rw [e1]; simp [h]

theorem near_lower {a b c d : Label} (h1 : lowerLabel a = lowerLabel c) (h2 : lowerLabel b = lowerLabel d) : Near a b → Near c d := by
  unfold Near; rw [h1, h2]; exact id

theorem near_ascii {a b : Label} (ha : AsciiLabel a) (hb : AsciiLabel b) : Near a b := by
  have hx : ∀ {a : Label}, AsciiLabel a → ∀ {p : Label} {x : UInt8} {as : Label}, lowerLabel a = p ++ x :: as → 0 ≤ signed x ∧ signed x ≤ 127 := by
    intro a ha p x as e
    have : x ∈ lowerLabel a := by rw [e]; simp
    obtain ⟨c, hc, rfl⟩ := List.mem_map.1 this
    have := lowerByte_lt128 c (ha c hc)
    unfold signed; rw [if_pos this]; omega
  intro p x y as bs h1 h2
  have := hx ha h1
  have := hx hb h2
  omega

theorem list_near : ∀ (as bs : List Label), (∀ a ∈ as, ∀ b ∈ bs, Near a b) → listOrder (diffOrder true) as bs ≠ none
  | [], [], _ => by simp [listOrder]
  | [], _ :: _, _ => by simp [listOrder]
  | _ :: _, [], _ => by simp [listOrder]
  | a :: as, b :: bs, h => by
    have h1 := (near_iff a b).2 (h a (by simp) b (by simp))
    rw [listOrder]
    cases e : labelOrder (diffOrder true) a b with
    | none => exact absurd e h1
    | some o =>
      cases o with
      | eq => simp only; exact list_near as bs fun x hx y hy => h x (by simp [hx]) y (by simp [hy])
      | lt => simp
      | gt => simp

/-- labels of which any two are near compare the same in both builds -/
theorem relSpec_near (m : Build) (as bs : List Label) (n : Nat) (hla : as.length ≤ 128) (hlb : bs.length ≤ 128) (hne : as ≠ [] ∧ bs ≠ [])
    (h63a : ∀ l ∈ as, l.length ≤ 63) (h63b : ∀ l ∈ bs, l.length ≤ 63) (h : ∀ a ∈ as, ∀ b ∈ bs, Near a b) :
    relSpec m as bs n ≠ .panic ∧ relSpec .debug as bs n = relSpec m as bs n := by
  have hs := list_spec .debug as bs n hla hlb (.inl hne) h63a h63b
  have h1 : relSpec .debug as bs n ≠ .panic := by
    cases ho : listOrder (diffOrder (checks .debug)) as bs with
    | none => exact absurd ho (list_near as bs h)
    | some o =>
      rw [ho] at hs
      obtain ⟨r, hr, -⟩ := hs
      rw [hr]; simp
  cases m with
  | debug => exact ⟨h1, rfl⟩
  | release =>
    have h2 := (LabelSlice.relSpec_debug as bs n).resolve_left h1
    exact ⟨by rw [← h2]; exact h1, h2⟩

end R53
