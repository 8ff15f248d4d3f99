import Verif.Spec.NameText
import Verif.Spec.Present
import Verif.Proofs.NameBasic
/-!
# Which names are read back from their text

Counting: every dot of a text ends a label; octets of the labels read are octets of the text; and reading an escape back either
gives too many octets that are not digits or too few digits.
-/
namespace R53

theorem pushOctet_some {c : UInt8} {o : Option (List Label)} {R : List Label} (h : pushOctet c o = some R) :
    ∃ l ls, o = some (l :: ls) ∧ R = (c :: l) :: ls := by
  unfold pushOctet at h
  split at h
  · rename_i l ls; exact ⟨l, ls, rfl, (Option.some.inj h).symm⟩
  · cases h

theorem threeDigits_dig {a b c : UInt8} (h : threeDigits a b c = true) : a ≠ 46 ∧ b ≠ 46 ∧ c ≠ 46 := by
  unfold threeDigits at h
  simp only [Bool.and_eq_true, decide_eq_true_eq] at h
  refine ⟨?_, ?_, ?_⟩ <;> rintro rfl <;> simp at h

/-- every dot ends a label, and labels consist of octets of the text -/
theorem readLabels_count (n : Nat) : ∀ (p : Place) (w : List UInt8) (R : List Label), w.length ≤ n → readLabels p w = some R →
    R.length = w.count 46 + 1 ∧ ∀ c ∈ R.flatten, c ∈ w := by
  induction n with
  | zero =>
    intro p w R hn h
    obtain rfl := List.length_eq_zero_iff.1 (Nat.le_zero.1 hn)
    cases p <;> simp only [readLabels] at h <;> cases h <;> simp
  | succ n ih =>
    intro p w R hn h
    cases w with
    | nil => cases p <;> simp only [readLabels] at h <;> cases h <;> simp
    | cons c t =>
      have ht : t.length ≤ n := by simpa using hn
      have dot : ∀ {R : List Label}, (readLabels .start t).map ([] :: ·) = some R → R.length = t.count 46 + 2 ∧ ∀ x ∈ R.flatten, x ∈ t := by
        intro R h
        rw [Option.map_eq_some_iff] at h
        obtain ⟨S, hS, rfl⟩ := h
        obtain ⟨h1, h2⟩ := ih _ _ _ ht hS
        exact ⟨by simp [h1], by simpa using h2⟩
      have push : ∀ {q : Place} {R : List Label}, c ≠ 46 → pushOctet c (readLabels q t) = some R →
          R.length = (c :: t).count 46 + 1 ∧ ∀ x ∈ R.flatten, x ∈ c :: t := by
        intro q R hc h
        obtain ⟨l, ls, h1, rfl⟩ := pushOctet_some h
        obtain ⟨h2, h3⟩ := ih _ _ _ ht h1
        refine ⟨by rw [List.count_cons_of_ne (by simpa using hc)]; simpa using h2, ?_⟩
        intro x hx
        simp only [List.flatten_cons, List.cons_append, List.mem_cons] at hx ⊢
        rcases hx with rfl | hx
        · exact .inl rfl
        · exact .inr (h3 x (by simpa using hx))
      have h92 : (92 : UInt8) ≠ 46 := by decide
      cases p with
      | start =>
        simp only [readLabels] at h
        split at h
        · rename_i hc
          subst hc
          obtain ⟨h1, h2⟩ := dot h
          exact ⟨by rw [h1, List.count_cons_self], fun x hx => List.mem_cons_of_mem _ (h2 x hx)⟩
        · split at h
          · rename_i hc
            subst hc
            exact push h92 h
          · rename_i hc _; exact push hc h
      | inside =>
        simp only [readLabels] at h
        split at h
        · rename_i hc
          subst hc
          obtain ⟨h1, h2⟩ := dot h
          exact ⟨by rw [h1, List.count_cons_self], fun x hx => List.mem_cons_of_mem _ (h2 x hx)⟩
        · split at h
          · rename_i hc
            subst hc
            obtain ⟨h1, h2⟩ := ih _ _ _ ht h
            exact ⟨by rw [h1, List.count_cons_of_ne (by decide)], fun x hx => List.mem_cons_of_mem _ (h2 x hx)⟩
          · rename_i hc _; exact push hc h
      | escaped =>
        unfold readLabels at h
        split at h
        · rename_i hc
          subst hc
          obtain ⟨l, ls, h1, rfl⟩ := pushOctet_some h
          obtain ⟨h2, h3⟩ := dot h1
          refine ⟨by rw [List.count_cons_self]; simpa using h2, ?_⟩
          intro x hx
          simp only [List.flatten_cons, List.cons_append, List.mem_cons] at hx ⊢
          rcases hx with rfl | hx
          · exact .inl rfl
          · exact .inr (h3 x (by simpa using hx))
        · split at h
          · rename_i hc
            subst hc
            exact push h92 h
          · rename_i hc _
            split at h
            · split at h
              · rename_i d e u
                split at h
                · rename_i hd
                  obtain ⟨l, ls, h1, rfl⟩ := pushOctet_some h
                  obtain ⟨h2, h3⟩ := ih .inside u _ (by simp at ht; omega) h1
                  obtain ⟨d1, d2, d3⟩ := threeDigits_dig hd
                  refine ⟨by
                    rw [List.count_cons_of_ne (by simpa using d1), List.count_cons_of_ne (by simpa using d2),
                      List.count_cons_of_ne (by simpa using d3)]; simpa using h2, ?_⟩
                  intro x hx
                  simp only [List.flatten_cons, List.cons_append, List.mem_cons] at hx ⊢
                  rcases hx with rfl | hx
                  · simp
                  · exact .inr (.inr (.inr (h3 x (by simpa using hx))))
                · cases h
              · cases h
            · obtain ⟨l, ls, h1, rfl⟩ := pushOctet_some h
              obtain ⟨h2, h3⟩ := push hc h1
              refine ⟨by simpa using h2, ?_⟩
              intro x hx
              simp only [List.flatten_cons, List.cons_append, List.mem_cons] at hx
              rcases hx with rfl | hx
              · simp
              · exact h3 x (by simpa using hx)

/-! ## escapes -/

/-- an octet of a label, or the end of a label -/
def tokText : Option UInt8 → List UInt8
  | none => [46]
  | some c => presentOctet c

def isDig (c : UInt8) : Bool := decide (48 ≤ c ∧ c ≤ 57)
/-- the octets of `R` that are not digits, and those that are -/
def others (R : List Label) : Nat := R.flatten.countP fun c => !isDig c
def digs (R : List Label) : Nat := R.flatten.countP isDig
def tokOthers (ts : List (Option UInt8)) : Nat := ts.countP fun t => match t with | some c => !isDig c | none => false
def tokDigs (ts : List (Option UInt8)) : Nat := ts.countP fun t => match t with | some c => isDig c | none => false

/-- visible and not a dot -/
def Sees (ts : List (Option UInt8)) : Prop := ∀ c, some c ∈ ts → 0x21 ≤ c ∧ c ≤ 0x7e ∧ c ≠ 46

/-- the three shapes of the text of an octet -/
theorem presentOctet_shape (c : UInt8) (h : 0x21 ≤ c ∧ c ≤ 0x7e ∧ c ≠ 46) :
    (Plain c ∧ presentOctet c = [c] ∧ c ≠ 92) ∨ (¬ Plain c ∧ presentOctet c = [92, c] ∧ isDig c = false) := by
  revert c; apply forall_u8'; unfold Plain; decide +kernel

theorem others_push (c : UInt8) (l : Label) (ls : List Label) :
    others ((c :: l) :: ls) = others (l :: ls) + (if isDig c then 0 else 1) ∧ digs ((c :: l) :: ls) = digs (l :: ls) + (if isDig c then 1 else 0) := by
  unfold others digs
  cases h : isDig c <;> simp [List.countP_cons, h]

theorem others_nil (R : List Label) : others ([] :: R) = others R ∧ digs ([] :: R) = digs R := by simp [others, digs]

theorem tokOthers_none (ts : List (Option UInt8)) : tokOthers (none :: ts) = tokOthers ts ∧ tokDigs (none :: ts) = tokDigs ts := by
  simp [tokOthers, tokDigs, List.countP_cons]

theorem tokOthers_some (c : UInt8) (ts : List (Option UInt8)) :
    tokOthers (some c :: ts) = tokOthers ts + (if isDig c then 0 else 1) ∧ tokDigs (some c :: ts) = tokDigs ts + (if isDig c then 1 else 0) := by
  cases h : isDig c <;> simp [tokOthers, tokDigs, List.countP_cons, h]

theorem isDig_iff (c : UInt8) : isDig c = true ↔ 48 ≤ c ∧ c ≤ 57 := by simp [isDig]

/-- the first octet of the text of a token is a digit only if the token is that digit -/
theorem tok_digit (ts : List (Option UInt8)) (hs : Sees ts) (d : UInt8) (u : List UInt8) (hd : isDig d = true)
    (h : ts.flatMap tokText = d :: u) : ∃ ts', ts = some d :: ts' ∧ u = ts'.flatMap tokText := by
  cases ts with
  | nil => simp at h
  | cons t ts =>
    rw [List.flatMap_cons] at h
    cases t with
    | none =>
      simp only [tokText, List.cons_append, List.nil_append, List.cons.injEq] at h
      rw [← h.1] at hd
      exact absurd hd (by decide)
    | some c =>
      rcases presentOctet_shape c (hs c (by simp)) with ⟨_, e, _⟩ | ⟨_, e, _⟩
      · simp only [tokText, e, List.cons_append, List.nil_append, List.cons.injEq] at h
        exact ⟨ts, by rw [h.1], h.2.symm⟩
      · simp only [tokText, e, List.cons_append, List.nil_append, List.cons.injEq] at h
        rw [← h.1] at hd
        exact absurd hd (by decide)

theorem threeDigits_isDig {a b c : UInt8} (h : threeDigits a b c = true) : isDig a = true ∧ isDig b = true ∧ isDig c = true := by
  unfold threeDigits at h
  simp only [Bool.and_eq_true, decide_eq_true_eq] at h
  simp only [isDig_iff]
  exact ⟨⟨h.1.1.1.1.1.1, h.1.1.1.1.1.2⟩, ⟨h.1.1.1.1.2, h.1.1.1.2⟩, ⟨h.1.1.2, h.1.2⟩⟩

/-- reading tokens back: never fewer octets other than digits, never more digits; and behind a backslash or with an escape one of them
strictly -/
theorem read_escapes (n : Nat) : ∀ (p : Place) (ts : List (Option UInt8)) (R : List Label), ts.length ≤ n → Sees ts →
    readLabels p (ts.flatMap tokText) = some R →
    tokOthers ts ≤ others R ∧ digs R ≤ tokDigs ts ∧
      ((p matches .escaped) ∨ (∃ c, some c ∈ ts ∧ ¬ Plain c) → tokOthers ts < others R ∨ digs R < tokDigs ts) := by
  induction n with
  | zero =>
    intro p ts R hn hs h
    obtain rfl := List.length_eq_zero_iff.1 (Nat.le_zero.1 hn)
    cases p <;> simp only [List.flatMap_nil, readLabels] at h <;> cases h <;> simp [tokOthers, others, digs, tokDigs]
  | succ n ih =>
    intro p ts R hn hs h
    cases ts with
    | nil => cases p <;> simp only [List.flatMap_nil, readLabels] at h <;> cases h <;> simp [tokOthers, others, digs, tokDigs]
    | cons t ts =>
      have hl : ts.length ≤ n := by simpa using hn
      have hs' : Sees ts := fun c hc => hs c (List.mem_cons_of_mem _ hc)
      rw [List.flatMap_cons] at h
      cases t with
      | none =>
        have htx : tokText none = [46] := rfl
        rw [htx, List.cons_append, List.nil_append] at h
        have fin : ∀ S, readLabels .start (ts.flatMap tokText) = some S → tokOthers (none :: ts) ≤ others ([] :: S) ∧
            digs ([] :: S) ≤ tokDigs (none :: ts) ∧
            ((∃ c, some c ∈ (none :: ts : List (Option UInt8)) ∧ ¬ Plain c) → tokOthers (none :: ts) < others ([] :: S) ∨ digs ([] :: S) < tokDigs (none :: ts)) := by
          intro S hS
          obtain ⟨h1, h2, h3⟩ := ih _ _ _ hl hs' hS
          rw [(tokOthers_none ts).1, (tokOthers_none ts).2, (others_nil S).1, (others_nil S).2]
          refine ⟨h1, h2, fun ⟨c, hc, hp⟩ => h3 (.inr ⟨c, by simpa using hc, hp⟩)⟩
        cases p with
        | start =>
          simp only [readLabels, if_true, Option.map_eq_some_iff] at h
          obtain ⟨S, hS, rfl⟩ := h
          obtain ⟨h1, h2, h3⟩ := fin S hS
          exact ⟨h1, h2, fun hh => h3 (by simpa using hh)⟩
        | inside =>
          simp only [readLabels, if_true, Option.map_eq_some_iff] at h
          obtain ⟨S, hS, rfl⟩ := h
          obtain ⟨h1, h2, h3⟩ := fin S hS
          exact ⟨h1, h2, fun hh => h3 (by simpa using hh)⟩
        | escaped =>
          unfold readLabels at h
          rw [if_pos rfl] at h
          obtain ⟨l, ls, h1, rfl⟩ := pushOctet_some h
          rw [Option.map_eq_some_iff] at h1
          obtain ⟨S, hS, h1⟩ := h1
          obtain ⟨k1, k2, k3⟩ := fin S hS
          rw [h1] at k1 k2
          have := others_push 46 l ls
          rw [this.1, this.2]
          simp only [show isDig 46 = false by decide, Bool.false_eq_true, if_false]
          omega
      | some c =>
        have hc := hs c (by simp)
        have hto := tokOthers_some c ts
        rcases presentOctet_shape c hc with ⟨hpl, e, h92⟩ | ⟨hpl, e, hnd⟩
        · have htx : tokText (some c) = [c] := e
          rw [htx, List.cons_append, List.nil_append] at h
          have inner : ∀ {R}, pushOctet c (readLabels .inside (ts.flatMap tokText)) = some R →
              tokOthers (some c :: ts) ≤ others R ∧ digs R ≤ tokDigs (some c :: ts) ∧
              ((∃ x, some x ∈ (some c :: ts) ∧ ¬ Plain x) → tokOthers (some c :: ts) < others R ∨ digs R < tokDigs (some c :: ts)) := by
            intro R h
            obtain ⟨l, ls, h1, rfl⟩ := pushOctet_some h
            obtain ⟨k1, k2, k3⟩ := ih _ _ _ hl hs' h1
            rw [(others_push c l ls).1, (others_push c l ls).2, hto.1, hto.2]
            refine ⟨by omega, by omega, fun ⟨x, hx, hxp⟩ => ?_⟩
            have := k3 (.inr ⟨x, by
              rcases List.mem_cons.1 hx with hx | hx
              · cases hx; exact absurd hpl hxp
              · exact hx, hxp⟩)
            omega
          cases p with
          | start =>
            simp only [readLabels, if_neg hc.2.2, if_neg h92] at h
            obtain ⟨k1, k2, k3⟩ := inner h
            exact ⟨k1, k2, fun hh => k3 (by simpa using hh)⟩
          | inside =>
            simp only [readLabels, if_neg hc.2.2, if_neg h92] at h
            obtain ⟨k1, k2, k3⟩ := inner h
            exact ⟨k1, k2, fun hh => k3 (by simpa using hh)⟩
          | escaped =>
            unfold readLabels at h
            rw [if_neg hc.2.2, if_neg h92] at h
            split at h
            · rename_i hdig
              have hcd : isDig c = true := (isDig_iff c).2 hdig
              split at h
              · rename_i d x u heq
                split at h
                · rename_i h3
                  obtain ⟨_, d2, d3⟩ := threeDigits_isDig h3
                  obtain ⟨ts1, rfl, hu1⟩ := tok_digit ts hs' d _ d2 heq
                  have hs1 : Sees ts1 := fun c hc => hs' c (List.mem_cons_of_mem _ hc)
                  obtain ⟨ts2, rfl, hu2⟩ := tok_digit ts1 hs1 x _ d3 hu1.symm
                  have hs2 : Sees ts2 := fun c hc => hs1 c (List.mem_cons_of_mem _ hc)
                  obtain ⟨l, ls, h1, rfl⟩ := pushOctet_some h
                  rw [hu2] at h1
                  obtain ⟨k1, k2, -⟩ := ih .inside ts2 _ (by simp at hl; omega) hs2 h1
                  have e1 := others_push x l ls
                  have e2 := tokOthers_some c (some d :: some x :: ts2)
                  have e3 := tokOthers_some d (some x :: ts2)
                  have e4 := tokOthers_some x ts2
                  simp only [hcd, d2, d3, if_true] at e1 e2 e3 e4
                  omega
                · cases h
              · cases h
            · rename_i hdig
              have hcd : isDig c = false := by
                cases hh : isDig c with
                | false => rfl
                | true => exact absurd ((isDig_iff c).1 hh) hdig
              obtain ⟨l, ls, h1, rfl⟩ := pushOctet_some h
              obtain ⟨k1, k2, k3⟩ := inner h1
              have e1 := others_push c l ls
              simp only [hcd, Bool.false_eq_true, if_false] at e1
              omega
        · have htx : tokText (some c) = [92, c] := e
          rw [htx, List.cons_append, List.cons_append, List.nil_append] at h
          have esc : ∀ {Q : List Label}, readLabels .escaped (c :: ts.flatMap tokText) = some Q →
              tokOthers (some c :: ts) ≤ others Q ∧ digs Q ≤ tokDigs (some c :: ts) ∧
              (tokOthers (some c :: ts) < others Q ∨ digs Q < tokDigs (some c :: ts)) := by
            intro Q hQ
            clear h
            unfold readLabels at hQ
            simp only [hnd, Bool.false_eq_true, if_false] at hto
            rw [if_neg hc.2.2] at hQ
            split at hQ
            · rename_i h92
              subst h92
              obtain ⟨l, ls, h1, hR⟩ := pushOctet_some hQ
              obtain ⟨k1, k2, k3⟩ := ih _ _ _ hl hs' h1
              have k3 := k3 (.inl rfl)
              have e1 := others_push 92 l ls
              simp only [show isDig 92 = false by decide, Bool.false_eq_true, if_false] at e1
              subst hR
              omega
            · rw [if_neg (fun hh => by rw [(isDig_iff c).2 hh] at hnd; cases hnd)] at hQ
              obtain ⟨l, ls, h1, hR⟩ := pushOctet_some hQ
              obtain ⟨l', ls', h2, h3⟩ := pushOctet_some h1
              obtain ⟨k1, k2, -⟩ := ih _ _ _ hl hs' h2
              injection h3 with a b
              subst a; subst b; subst hR
              have e1 := others_push c (c :: l') ls
              have e2 := others_push c l' ls
              simp only [hnd, Bool.false_eq_true, if_false] at e1 e2
              omega
          have slash : ∀ {R}, pushOctet 92 (readLabels .escaped (c :: ts.flatMap tokText)) = some R →
              tokOthers (some c :: ts) ≤ others R ∧ digs R ≤ tokDigs (some c :: ts) ∧
              (tokOthers (some c :: ts) < others R ∨ digs R < tokDigs (some c :: ts)) := by
            intro R h
            obtain ⟨l, ls, h1, rfl⟩ := pushOctet_some h
            obtain ⟨k1, k2, k3⟩ := esc h1
            have e1 := others_push 92 l ls
            simp only [show isDig 92 = false by decide, Bool.false_eq_true, if_false] at e1
            omega
          cases p with
          | start =>
            rw [readLabels.eq_def] at h
            simp only [show ¬ (92 : UInt8) = 46 by decide, if_false, if_true] at h
            obtain ⟨k1, k2, k3⟩ := slash h
            exact ⟨k1, k2, fun _ => k3⟩
          | inside =>
            rw [readLabels.eq_def] at h
            simp only [show ¬ (92 : UInt8) = 46 by decide, if_false, if_true] at h
            obtain ⟨k1, k2, k3⟩ := esc h
            exact ⟨k1, k2, fun _ => k3⟩
          | escaped =>
            rw [readLabels.eq_def] at h
            simp only [show ¬ (92 : UInt8) = 46 by decide, if_false, if_true] at h
            obtain ⟨k1, k2, k3⟩ := slash h
            exact ⟨k1, k2, fun _ => k3⟩

end R53
