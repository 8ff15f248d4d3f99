import Verif.Proofs.NameRel
import Verif.Spec.Signed
/-!
# Comparison of names, exactly
-/
namespace R53
open LabelSlice (bytesDiff relSpec mismatch truncI8 truncI8_small)

/-- the sign of a difference, as an order -/
def signOf (d : Int) : Ordering := if d < 0 then .lt else if d = 0 then .eq else .gt

theorem compare_sign (p q : Int) : compare p q = signOf (p - q) := by
  unfold signOf
  rw [show compare p q = if p < q then Ordering.lt else if p = q then .eq else .gt from rfl]
  (repeat' split) <;> first | rfl | omega

/-- the build mode as a flag -/
abbrev checks (m : Build) : Bool := decide (m = .debug)

theorem octet_spec (m : Build) (x y : UInt8) : match diffOrder (checks m) x y with
    | none => subI8 m (asI8 x) (asI8 y) = .panic
    | some o => ∃ d, subI8 m (asI8 x) (asI8 y) = .ok d ∧ signOf d = o := by
  have e : ∀ c, asI8 c = signed c := fun _ => rfl
  have hb : ∀ c, -128 ≤ signed c ∧ signed c ≤ 127 := by
    intro c; unfold signed; have := c.toNat_lt; split <;> omega
  rw [e, e]
  have hx := hb x
  have hy := hb y
  unfold diffOrder subI8
  by_cases h : -128 ≤ signed x - signed y ∧ signed x - signed y ≤ 127
  · simp only [h, and_self, if_true]
    exact ⟨_, rfl, (compare_sign _ _).symm⟩
  · simp only [h, if_false]
    cases m with
    | debug => rfl
    | release =>
      refine ⟨_, rfl, ?_⟩
      rw [compare_sign]
      unfold signOf
      (repeat' split) <;> first | rfl | omega

theorem sign_eq {d : Int} : signOf d = .eq ↔ d = 0 := by
  unfold signOf; (repeat' split) <;> simp <;> omega

theorem label_spec (m : Build) (a b : Label) (ha : a.length ≤ 63) (hb : b.length ≤ 63) : match labelOrder (diffOrder (checks m)) a b with
    | none => bytesDiff m a b = .panic
    | some o => ∃ r, bytesDiff m a b = .ok r ∧ signOf (r.getD ((a.length : Int) - b.length)) = o ∧ ∀ d, r = some d → d ≠ 0 := by
  induction a generalizing b with
  | nil =>
    cases b with
    | nil => exact ⟨none, rfl, rfl, by simp⟩
    | cons y b => exact ⟨none, rfl, by unfold signOf; simp, by simp⟩
  | cons x a ih =>
    cases b with
    | nil => exact ⟨none, rfl, by unfold signOf; simp only [Option.getD_none, List.length_cons, List.length_nil]; rw [if_neg (by omega), if_neg (by omega)], by simp⟩
    | cons y b =>
      have h := octet_spec m (lowerByte x) (lowerByte y)
      have ih := ih b (by simp at ha; omega) (by simp at hb; omega)
      unfold labelOrder bytesDiff
      cases ho : diffOrder (checks m) (lowerByte x) (lowerByte y) with
      | none => rw [ho] at h; simp only at h ⊢; rw [h]; rfl
      | some o =>
        rw [ho] at h
        obtain ⟨d, h1, h2⟩ := h
        rw [h1, Res.bind_ok]
        by_cases hd : d = 0
        · subst hd
          have h2 : Ordering.eq = o := h2
          subst h2
          simp only [ne_eq, not_true_eq_false, if_false]
          have e : (((x :: a).length : Int) - ((y :: b).length : Int)) = (a.length : Int) - b.length := by simp; omega
          rw [e]; exact ih
        · have ho' : o ≠ .eq := by rintro rfl; exact hd (sign_eq.1 h2)
          simp only [ne_eq, hd, not_false_eq_true, if_true]
          cases o with
          | eq => exact absurd rfl ho'
          | lt => exact ⟨some d, rfl, h2, by rintro _ ⟨⟩; exact hd⟩
          | gt => exact ⟨some d, rfl, h2, by rintro _ ⟨⟩; exact hd⟩

theorem list_spec (m : Build) (as bs : List Label) (n : Nat) (hla : as.length ≤ 128) (hlb : bs.length ≤ 128)
    (hne : as ≠ [] ∧ bs ≠ [] ∨ (as.length : Int) - bs.length ≤ 127 ∧ (bs.length : Int) - as.length ≤ 127)
    (h63a : ∀ l ∈ as, l.length ≤ 63) (h63b : ∀ l ∈ bs, l.length ≤ 63) : match listOrder (diffOrder (checks m)) as bs with
    | none => relSpec m as bs n = .panic
    | some o => ∃ r, relSpec m as bs n = .ok r ∧ signOf r.order = o := by
  induction as generalizing bs n with
  | nil =>
    cases bs with
    | nil => exact ⟨_, rfl, rfl⟩
    | cons y bs =>
      refine ⟨_, rfl, ?_⟩
      simp only
      rw [truncI8_small _ (by simp only [List.length_nil, List.length_cons] at hne ⊢; simp at hne; omega)]
      unfold signOf; simp
  | cons x as ih =>
    cases bs with
    | nil =>
      refine ⟨_, rfl, ?_⟩
      simp only
      rw [truncI8_small _ (by simp only [List.length_nil, List.length_cons] at hne ⊢; simp at hne; omega)]
      unfold signOf; simp only [List.length_cons, List.length_nil]; rw [if_neg (by omega), if_neg (by omega)]
    | cons y bs =>
      have hx := h63a x (by simp)
      have hy := h63b y (by simp)
      have h := label_spec m x y hx hy
      have ih := ih bs (n + 1) (by simp at hla; omega) (by simp at hlb; omega) (by right; simp at hla hlb; omega)
        (fun l hl => h63a l (by simp [hl])) (fun l hl => h63b l (by simp [hl]))
      unfold listOrder relSpec
      cases ho : labelOrder (diffOrder (checks m)) x y with
      | none => rw [ho] at h; simp only at h ⊢; rw [h]; rfl
      | some o =>
        rw [ho] at h
        obtain ⟨r, h1, h2, h3⟩ := h
        rw [h1, Res.bind_ok]
        cases r with
        | some d =>
          have : o ≠ .eq := by rintro rfl; exact h3 d rfl (sign_eq.1 h2)
          cases o with
          | eq => exact absurd rfl this
          | lt => exact ⟨_, rfl, h2⟩
          | gt => exact ⟨_, rfl, h2⟩
        | none =>
          simp only [Option.getD_none] at h2
          by_cases hd : (x.length : Int) - (y.length : Int) = 0
          · rw [hd] at h2
            have h2 : Ordering.eq = o := h2
            subst h2
            simp only [ne_eq, hd, not_true_eq_false, if_false]
            exact ih
          · have : o ≠ .eq := by rintro rfl; exact hd (sign_eq.1 h2)
            simp only [ne_eq, hd, not_false_eq_true, if_true]
            have ht : truncI8 ((x.length : Int) - (y.length : Int)) = (x.length : Int) - (y.length : Int) := truncI8_small _ (by omega)
            cases o with
            | eq => exact absurd rfl this
            | lt => exact ⟨_, rfl, by simp only [mismatch]; rw [ht]; exact h2⟩
            | gt => exact ⟨_, rfl, by simp only [mismatch]; rw [ht]; exact h2⟩

theorem Name.cmp_signed (m : Build) {a b : List Label} (ha : ValidName a) (hb : ValidName b) :
    Name.cmp m (Name.ofLabels a) (Name.ofLabels b) = match nameOrder (diffOrder (checks m)) a b with
      | none => .panic
      | some o => .ok o := by
  have hca := rev_root_bounds ha
  have hcb := rev_root_bounds hb
  have h := list_spec m ([] :: a.reverse) ([] :: b.reverse) 0 hca.1 hcb.1 (Or.inl ⟨by simp, by simp⟩) hca.2 hcb.2
  have e : listOrder (diffOrder (checks m)) ([] :: a.reverse) ([] :: b.reverse) = nameOrder (diffOrder (checks m)) a b := rfl
  rw [e] at h
  unfold Name.cmp
  rw [get_relation_ofLabels m ha hb]
  cases ho : nameOrder (diffOrder (checks m)) a b with
  | none => rw [ho] at h; simp only at h; rw [h]; rfl
  | some o =>
    rw [ho] at h
    obtain ⟨r, h1, h2⟩ := h
    rw [h1, Res.bind_ok]
    exact congrArg Res.ok h2


/-- the order of signed octets -/
def signedOrder (x y : UInt8) : Option Ordering := some (compare (signed x) (signed y))

theorem octet_checked {x y : UInt8} {o : Ordering} (h : diffOrder true x y = some o) : signedOrder x y = some o := by
  unfold diffOrder at h
  split at h
  · exact h
  · simp at h

theorem label_checked : ∀ {a b : Label} {o : Ordering}, labelOrder (diffOrder true) a b = some o → labelOrder signedOrder a b = some o
  | [], [], _, h => h
  | [], _ :: _, _, h => h
  | _ :: _, [], _, h => h
  | x :: a, y :: b, o, h => by
    unfold labelOrder at h ⊢
    cases e : diffOrder true (lowerByte x) (lowerByte y) with
    | none => rw [e] at h; simp at h
    | some p =>
      rw [e] at h
      rw [octet_checked e]
      cases p with
      | eq => exact label_checked h
      | lt => exact h
      | gt => exact h

theorem list_checked : ∀ {a b : List Label} {o : Ordering}, listOrder (diffOrder true) a b = some o → listOrder signedOrder a b = some o
  | [], [], _, h => h
  | [], _ :: _, _, h => h
  | _ :: _, [], _, h => h
  | x :: a, y :: b, o, h => by
    unfold listOrder at h ⊢
    cases e : labelOrder (diffOrder true) x y with
    | none => rw [e] at h; simp at h
    | some p =>
      rw [e] at h
      rw [label_checked e]
      cases p with
      | eq => exact list_checked h
      | lt => exact h
      | gt => exact h

theorem signed_swap (x y : UInt8) : signedOrder x y = (signedOrder y x).map Ordering.swap := by
  unfold signedOrder
  simp only [Option.map_some, compare_sign]
  unfold signOf
  (repeat' split) <;> first | rfl | (simp only [Option.some.injEq]; omega) | omega

theorem label_swap : ∀ a b : Label, labelOrder signedOrder a b = (labelOrder signedOrder b a).map Ordering.swap
  | [], [] => rfl
  | [], _ :: _ => rfl
  | _ :: _, [] => rfl
  | x :: a, y :: b => by
    unfold labelOrder
    rw [signed_swap]
    cases e : signedOrder (lowerByte y) (lowerByte x) with
    | none => rfl
    | some p =>
      cases p with
      | eq => exact label_swap a b
      | lt => rfl
      | gt => rfl

theorem list_swap : ∀ a b : List Label, listOrder signedOrder a b = (listOrder signedOrder b a).map Ordering.swap
  | [], [] => rfl
  | [], _ :: _ => rfl
  | _ :: _, [] => rfl
  | x :: a, y :: b => by
    unfold listOrder
    rw [label_swap]
    cases e : labelOrder signedOrder y x with
    | none => rfl
    | some p =>
      cases p with
      | eq => exact list_swap a b
      | lt => rfl
      | gt => rfl

theorem signed_le_trans {x y z : UInt8} {o p : Ordering} (h1 : signedOrder x y = some o) (h2 : signedOrder y z = some p) (ho : o ≠ .gt) (hp : p ≠ .gt) :
    signedOrder x z = some (o.then p) := by
  have hl : ∀ a b : Int, a < b → compare a b = .lt := fun a b h => by rw [compare_sign]; unfold signOf; rw [if_pos (by omega)]
  have he : ∀ a : Int, compare a a = .eq := fun a => by rw [compare_sign]; unfold signOf; rw [if_neg (by omega), if_pos (by omega)]
  have hg : ∀ a b : Int, b < a → compare a b = .gt := fun a b h => by rw [compare_sign]; unfold signOf; rw [if_neg (by omega), if_neg (by omega)]
  unfold signedOrder at *
  generalize signed x = i at *; generalize signed y = j at *; generalize signed z = k at *
  simp only [Option.some.injEq] at *
  subst h1 h2
  rcases Int.lt_trichotomy i j with h | rfl | h
  · rw [hl _ _ h]
    rcases Int.lt_trichotomy j k with h' | rfl | h'
    · rw [hl i k (by omega)]; rfl
    · rw [hl _ _ h]; rfl
    · rw [hg _ _ h'] at hp; exact absurd rfl hp
  · rw [he]; rfl
  · rw [hg _ _ h] at ho; exact absurd rfl ho

theorem label_le_trans : ∀ {a b c : Label} {o p : Ordering}, labelOrder signedOrder a b = some o → labelOrder signedOrder b c = some p →
    o ≠ .gt → p ≠ .gt → labelOrder signedOrder a c = some (o.then p)
  | [], [], [], _, _, h1, h2, _, _ => by cases h1; cases h2; rfl
  | [], [], _ :: _, _, _, h1, h2, _, _ => by cases h1; cases h2; rfl
  | [], _ :: _, [], _, _, h1, h2, _, hp => by cases h2; exact absurd rfl hp
  | [], _ :: _, _ :: _, _, _, h1, h2, _, _ => by cases h1; rfl
  | _ :: _, [], _, _, _, h1, _, ho, _ => by cases h1; exact absurd rfl ho
  | _ :: _, _ :: _, [], _, _, _, h2, _, hp => by cases h2; exact absurd rfl hp
  | x :: a, y :: b, z :: c, o, p, h1, h2, ho, hp => by
    unfold labelOrder at h1 h2 ⊢
    obtain ⟨q, e1⟩ : ∃ q, signedOrder (lowerByte x) (lowerByte y) = some q := ⟨_, rfl⟩
    obtain ⟨r, e2⟩ : ∃ r, signedOrder (lowerByte y) (lowerByte z) = some r := ⟨_, rfl⟩
    rw [e1] at h1; rw [e2] at h2
    have hq : q ≠ .gt := by rintro rfl; cases h1; exact ho rfl
    have hr : r ≠ .gt := by rintro rfl; cases h2; exact hp rfl
    rw [signed_le_trans e1 e2 hq hr]
    cases q with
    | gt => exact absurd rfl hq
    | lt => cases h1; rfl
    | eq =>
      cases r with
      | gt => exact absurd rfl hr
      | lt => cases h2; cases o <;> first | rfl | exact absurd rfl ho
      | eq => exact label_le_trans h1 h2 ho hp

theorem list_le_trans : ∀ {a b c : List Label} {o p : Ordering}, listOrder signedOrder a b = some o → listOrder signedOrder b c = some p →
    o ≠ .gt → p ≠ .gt → listOrder signedOrder a c = some (o.then p)
  | [], [], [], _, _, h1, h2, _, _ => by cases h1; cases h2; rfl
  | [], [], _ :: _, _, _, h1, h2, _, _ => by cases h1; cases h2; rfl
  | [], _ :: _, [], _, _, h1, h2, _, hp => by cases h2; exact absurd rfl hp
  | [], _ :: _, _ :: _, _, _, h1, h2, _, _ => by cases h1; rfl
  | _ :: _, [], _, _, _, h1, _, ho, _ => by cases h1; exact absurd rfl ho
  | _ :: _, _ :: _, [], _, _, _, h2, _, hp => by cases h2; exact absurd rfl hp
  | x :: a, y :: b, z :: c, o, p, h1, h2, ho, hp => by
    have tot : ∀ u v : Label, ∃ q, labelOrder signedOrder u v = some q := by
      intro u
      induction u with
      | nil => intro v; cases v <;> exact ⟨_, rfl⟩
      | cons s u ih =>
        intro v
        cases v with
        | nil => exact ⟨_, rfl⟩
        | cons t v =>
          unfold labelOrder
          obtain ⟨q, e⟩ : ∃ q, signedOrder (lowerByte s) (lowerByte t) = some q := ⟨_, rfl⟩
          rw [e]
          cases q with
          | eq => exact ih v
          | lt => exact ⟨_, rfl⟩
          | gt => exact ⟨_, rfl⟩
    unfold listOrder at h1 h2 ⊢
    obtain ⟨q, e1⟩ := tot x y
    obtain ⟨r, e2⟩ := tot y z
    rw [e1] at h1; rw [e2] at h2
    have hq : q ≠ .gt := by rintro rfl; cases h1; exact ho rfl
    have hr : r ≠ .gt := by rintro rfl; cases h2; exact hp rfl
    rw [label_le_trans e1 e2 hq hr]
    cases q with
    | gt => exact absurd rfl hq
    | lt => cases h1; rfl
    | eq =>
      cases r with
      | gt => exact absurd rfl hr
      | lt => cases h2; cases o <;> first | rfl | exact absurd rfl ho
      | eq => exact list_le_trans h1 h2 ho hp

end R53
