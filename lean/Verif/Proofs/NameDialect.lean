import Verif.Proofs.NameText2
/-!
# `Name::new` on texts with backslashes
-/
namespace R53
namespace Name

theorem readLabels_start (c : UInt8) (t : List UInt8) : readLabels .start (c :: t) =
    if c = 46 then (readLabels .start t).map ([] :: ·)
    else if c = 92 then pushOctet 92 (readLabels .escaped t)
    else pushOctet c (readLabels .inside t) := by
  rw [readLabels.eq_def]

theorem readLabels_inside (c : UInt8) (t : List UInt8) : readLabels .inside (c :: t) =
    if c = 46 then (readLabels .start t).map ([] :: ·)
    else if c = 92 then readLabels .escaped t
    else pushOctet c (readLabels .inside t) := by
  rw [readLabels.eq_def]

/-- three digits and the rest -/
def readNumber3 (c : UInt8) : List UInt8 → Option (List Label)
  | d :: e :: u => if threeDigits c d e then pushOctet e (readLabels .inside u) else none
  | _ => none

theorem readLabels_escaped (c : UInt8) (t : List UInt8) : readLabels .escaped (c :: t) =
    if c = 46 then pushOctet 46 ((readLabels .start t).map ([] :: ·))
    else if c = 92 then pushOctet 92 (readLabels .escaped t)
    else if 48 ≤ c ∧ c ≤ 57 then readNumber3 c t
    else pushOctet c (pushOctet c (readLabels .inside t)) := by
  rw [readLabels.eq_def]
  rfl

theorem readLabels_ne (p : Place) (w : List UInt8) : readLabels p w ≠ some [] := by
  have push : ∀ (c : UInt8) (r : Option (List Label)), pushOctet c r ≠ some [] := by
    intro c r; unfold pushOctet; split <;> simp
  have esc : ∀ t, readLabels .escaped t ≠ some [] := by
    intro t
    cases t with
    | nil => simp [readLabels]
    | cons c t =>
      rw [readLabels_escaped]
      split
      · exact push _ _
      · split
        · exact push _ _
        · split
          · unfold readNumber3
            split
            · split
              · exact push _ _
              · simp
            · simp
          · exact push _ _
  have nl : ∀ r : Option (List Label), r.map ([] :: ·) ≠ some [] := by intro r; cases r <;> simp
  cases p with
  | escaped => exact esc w
  | start =>
    cases w with
    | nil => simp [readLabels]
    | cons c t =>
      rw [readLabels_start]
      split
      · exact nl _
      · split <;> exact push _ _
  | inside =>
    cases w with
    | nil => simp [readLabels]
    | cons c t =>
      rw [readLabels_inside]
      split
      · exact nl _
      · split
        · exact esc t
        · exact push _ _

/-- the labels so far, the octets of the current one, and what the rest of the text gives -/
def outR (ls : List Label) (cur : Label) : Option (List Label) → Option (List Label)
  | some (x :: xs) => some (dropFinal (ls ++ (cur ++ x) :: xs))
  | _ => none

theorem outR_push (ls : List Label) (cur : Label) (c : UInt8) (r : Option (List Label)) :
    outR ls cur (pushOctet c r) = outR ls (cur ++ [c]) r := by
  cases r with
  | none => rfl
  | some r => cases r <;> simp [pushOctet, outR]

theorem outR_map (ls : List Label) (cur : Label) (r : Option (List Label)) (h : r ≠ some []) :
    outR ls cur (r.map ([] :: ·)) = outR (ls ++ [cur]) [] r := by
  cases r with
  | none => rfl
  | some r =>
    cases r with
    | nil => exact absurd rfl h
    | cons x xs => simp [outR]

/-- the last octet of the text is a dot behind a backslash -/
def EscDot (p : Place) (w : List UInt8) : Prop := [92, 46] <:+ w ∨ (p = .escaped ∧ w = [46])
instance (p : Place) (w : List UInt8) : Decidable (EscDot p w) := by
  unfold EscDot
  cases p
  · exact decidable_of_iff ([92, 46] <:+ w) (by simp)
  · exact decidable_of_iff ([92, 46] <:+ w) (by simp)
  · exact decidable_of_iff ([92, 46] <:+ w ∨ w = [46]) (by simp)

def bound (p : Place) (w : List UInt8) : Nat := if EscDot p w then 256 else 255

/-- valid labels within the limit -/
def Fits (b : Nat) (ls : List Label) : Prop := (∀ l ∈ ls, ValidLabel l) ∧ (nameWire ls).length ≤ b
instance (b : Nat) (ls : List Label) : Decidable (Fits b ls) := by unfold Fits; infer_instance

/-- what the machine answers -/
def answer (b : Nat) : Option (List Label) → Res (List UInt8 × List Nat)
  | some ls => if Fits b ls then .ok (nameWire ls, starts 0 (ls ++ [[]])) else .err
  | none => .err

theorem dropFinal_append (ls : List Label) (y : Label) (ys : List Label) : dropFinal (ls ++ y :: ys) = ls ++ dropFinal (y :: ys) := by
  unfold dropFinal
  have : (ls ++ y :: ys).getLast? = (y :: ys).getLast? := by
    rw [List.getLast?_append, List.getLast?_cons]; rfl
  rw [this]
  split
  · rw [List.dropLast_append_of_ne_nil (by simp)]
  · rfl

theorem dropFinal_keeps {y : Label} {ys : List Label} (h : y ≠ []) : ∃ zs, dropFinal (y :: ys) = y :: zs ∧ zs.flatten = ys.flatten := by
  unfold dropFinal
  split
  · rename_i hl
    cases ys with
    | nil => simp at hl; exact absurd hl h
    | cons z zs =>
      refine ⟨(z :: zs).dropLast, by simp, ?_⟩
      have := List.dropLast_concat_getLast (l := z :: zs) (by simp)
      have hl' : (z :: zs).getLast (by simp) = [] := by simpa [List.getLast?_eq_some_getLast] using hl
      rw [hl'] at this
      exact (show ((z :: zs).dropLast ++ [[]]).flatten = (z :: zs).flatten by rw [this]) ▸ (by simp)
  · exact ⟨ys, rfl, rfl⟩

theorem wire_flatten (ls : List Label) : ls.flatten.length ≤ (wire ls).length := by
  induction ls with
  | nil => simp
  | cons l ls ih => simp at ih ⊢; omega

theorem dropFinal_flatten (ls : List Label) : (dropFinal ls).flatten = ls.flatten := by
  unfold dropFinal
  split
  · rename_i hl
    have hne : ls ≠ [] := by intro h; subst h; simp at hl
    have := List.dropLast_concat_getLast hne
    have hl' : ls.getLast hne = [] := by simpa [List.getLast?_eq_some_getLast hne] using hl
    rw [hl'] at this
    exact (show (ls.dropLast ++ [[]]).flatten = ls.flatten by rw [this]) ▸ (by simp)
  · rfl

theorem push_flatten {c : UInt8} {r : Option (List Label)} {L : List Label} (h : pushOctet c r = some L) : L.flatten ≠ [] := by
  unfold pushOctet at h
  split at h
  · cases h; simp
  · simp at h

theorem escDot_cons {p q : Place} {c : UInt8} {t : List UInt8} (h : EscDot p (c :: t)) (hp : p ≠ .escaped) (hq : c = 92 → q = .escaped) : EscDot q t := by
  unfold EscDot at h ⊢
  rcases h with h | h
  · rw [List.suffix_cons_iff] at h
    rcases h with h | h
    · injection h with h1 h2
      exact .inr ⟨hq h1.symm, h2.symm⟩
    · exact .inl h
  · exact absurd h.1 hp

theorem escDot_tail {p q : Place} {c d : UInt8} {t : List UInt8} (h : EscDot p (c :: d :: t)) (hc : c ≠ 92) : EscDot q (d :: t) := by
  unfold EscDot at h ⊢
  rcases h with h | h
  · rw [List.suffix_cons_iff] at h
    rcases h with h | h
    · injection h with h1 h2; exact absurd h1.symm hc
    · exact .inl h
  · simp at h

theorem escDot_flatten : ∀ (w : List UInt8) (p : Place) (L : List Label), EscDot p w → readLabels p w = some L → L.flatten ≠ [] := by
  intro w
  induction w with
  | nil => intro p L h; simp [EscDot] at h
  | cons c t ih =>
    intro p L h hr
    have nl : ∀ {r : Option (List Label)} {L : List Label}, r.map ([] :: ·) = some L → (∀ M, r = some M → M.flatten ≠ []) → L.flatten ≠ [] := by
      intro r L h1 h2
      cases r with
      | none => simp at h1
      | some M => simp at h1; subst h1; simpa using h2 M rfl
    cases p with
    | start =>
      rw [readLabels_start] at hr
      split at hr
      · exact nl hr fun M hM => ih .start M (escDot_cons h (by simp) (by rename_i hc; intro h'; simp [hc] at h')) hM
      · split at hr
        · exact push_flatten hr
        · exact push_flatten hr
    | inside =>
      rw [readLabels_inside] at hr
      split at hr
      · exact nl hr fun M hM => ih .start M (escDot_cons h (by simp) (by rename_i hc; intro h'; simp [hc] at h')) hM
      · split at hr
        · exact ih .escaped L (escDot_cons h (by simp) (fun _ => rfl)) hr
        · exact push_flatten hr
    | escaped =>
      rw [readLabels_escaped] at hr
      split at hr
      · exact push_flatten hr
      · split at hr
        · exact push_flatten hr
        · split at hr
          · unfold readNumber3 at hr
            split at hr
            · split at hr
              · exact push_flatten hr
              · simp at hr
            · simp at hr
          · exact push_flatten hr

theorem answer_err {b : Nat} {o : Option (List Label)} (h : ∀ L, o = some L → ¬ Fits b L) : answer b o = .err := by
  cases o with
  | none => rfl
  | some L => simp [answer, h L rfl]

theorem outR_inv {ls : List Label} {cur : Label} {r : Option (List Label)} {L : List Label} (h : outR ls cur r = some L) :
    ∃ x xs, r = some (x :: xs) ∧ L = ls ++ dropFinal ((cur ++ x) :: xs) := by
  unfold outR at h
  split at h
  · rename_i x xs
    cases h
    exact ⟨x, xs, rfl, dropFinal_append ls _ _⟩
  · simp at h

theorem answer_bad {b : Nat} {ls : List Label} {cur l : Label} {r : Option (List Label)} (hl : l ∈ ls) (h : ¬ ValidLabel l) :
    answer b (outR ls cur r) = .err := by
  refine answer_err fun L hL hf => ?_
  obtain ⟨x, xs, -, rfl⟩ := outR_inv hL
  exact h (hf.1 l (by simp [hl]))

theorem answer_label {b : Nat} {ls : List Label} {cur : Label} {r : Option (List Label)} (h : 63 < cur.length) :
    answer b (outR ls cur r) = .err := by
  refine answer_err fun L hL hf => ?_
  obtain ⟨x, xs, -, rfl⟩ := outR_inv hL
  obtain ⟨zs, hz, -⟩ := dropFinal_keeps (y := cur ++ x) (ys := xs) (by intro h0; simp at h0; simp [h0.1] at h)
  have := (hf.1 (cur ++ x) (by simp [hz])).2
  simp at this
  omega

/-- no room: inside a label -/
theorem answer_full {p : Place} {w : List UInt8} {ls : List Label} {cur : Label} (hc : cur ≠ []) (hl : 255 ≤ (wire ls).length + 1 + cur.length) :
    answer (bound p w) (outR ls cur (readLabels p w)) = .err := by
  refine answer_err fun L hL hf => ?_
  obtain ⟨x, xs, hr, rfl⟩ := outR_inv hL
  obtain ⟨zs, hz, hzf⟩ := dropFinal_keeps (y := cur ++ x) (ys := xs) (by intro h0; simp at h0; exact hc h0.1)
  have h1 := hf.2
  rw [hz] at h1
  simp only [nameWire, wire_append, wire_cons, List.length_append, List.length_cons, List.length_nil] at h1
  have h2 := wire_flatten zs
  rw [hzf] at h2
  unfold bound at h1
  by_cases he : EscDot p w
  · rw [if_pos he] at h1
    have := escDot_flatten w p _ he hr
    have := List.length_pos_iff.2 this
    simp only [List.flatten_cons, List.length_append] at this
    omega
  · rw [if_neg he] at h1
    omega

/-- no room: at the start of a label -/
theorem answer_full_start {p : Place} {w : List UInt8} {ls : List Label} (hl : 255 ≤ (wire ls).length) :
    answer (bound p w) (outR ls [] (readLabels p w)) = .err := by
  refine answer_err fun L hL hf => ?_
  obtain ⟨x, xs, hr, rfl⟩ := outR_inv hL
  have h1 := hf.2
  simp only [nameWire, wire_append, List.length_append, List.length_cons, List.length_nil, List.nil_append] at h1
  have h2 := wire_flatten (dropFinal (x :: xs))
  rw [dropFinal_flatten] at h2
  unfold bound at h1
  by_cases he : EscDot p w
  · rw [if_pos he] at h1
    have := List.length_pos_iff.2 (escDot_flatten w p _ he hr)
    omega
  · rw [if_neg he] at h1
    omega

theorem escDot_iff {p q : Place} {c : UInt8} {t : List UInt8} (hq : c = 92 ↔ q = .escaped) (hp : p = .escaped → c :: t ≠ [46]) :
    EscDot p (c :: t) ↔ EscDot q t := by
  unfold EscDot
  constructor
  · rintro (h | ⟨h1, h2⟩)
    · rw [List.suffix_cons_iff] at h
      rcases h with h | h
      · injection h with h1 h2
        exact .inr ⟨hq.1 h1.symm, h2.symm⟩
      · exact .inl h
    · exact absurd h2 (hp h1)
  · rintro (h | ⟨h1, h2⟩)
    · exact .inl (List.suffix_cons_iff.2 (.inr h))
    · rw [hq.2 h1, h2]; exact .inl (List.suffix_refl _)

theorem bound_step {p q : Place} {c : UInt8} {t : List UInt8} (hq : c = 92 ↔ q = .escaped) (hp : p = .escaped → c :: t ≠ [46]) :
    bound p (c :: t) = bound q t := by
  unfold bound
  by_cases h : EscDot p (c :: t)
  · rw [if_pos h, if_pos ((escDot_iff hq hp).1 h)]
  · rw [if_neg h, if_neg (fun h' => h ((escDot_iff hq hp).2 h'))]

/-- the machine at a place of the text -/
def Rep : Place → List Label → Label → Ft → Prop
  | .start, ls, cur, s => s.state = .Start ∧ cur = [] ∧ AtLabel s ls
  | .inside, ls, cur, s => s.state = .Ordinary ∧ cur ≠ [] ∧ InLabel s ls cur
  | .escaped, ls, cur, s => s.state = .Escape ∧ cur ≠ [] ∧ InLabel s ls cur

/-- nothing more is read when the data is full -/
theorem ftLoop_full {w : List UInt8} {s : Ft} (hd : s.done = false) (h : 255 ≤ s.data.length) : ftLoop true w s = .err := by
  have hf : ∀ v, ftFinish true v s = .err := by
    intro v
    unfold ftFinish
    rw [if_neg (by simp [hd]), ensure_bind_err (by simp only [MAX_WIRE_LEN]; omega)]
  cases w with
  | nil => exact hf []
  | cons c t =>
    simp only [ftLoop]
    rw [if_pos (by simp only [MAX_WIRE_LEN]; omega)]
    exact hf _

theorem inLabel_length {s : Ft} {ls : List Label} {cur : Label} (h : InLabel s ls cur) : s.data.length = (wire ls).length + 1 + cur.length := by
  rw [h.data]; simp; omega

/-- a dot ends the label -/
theorem dot_step {ls : List Label} {cur : Label} {s : Ft} {t : List UInt8} {b : Nat} (h : InLabel s ls cur) (hc : cur ≠ [])
    (hl : s.data.length ≤ 255) (hb : t = [] → s.data.length + 1 ≤ b)
    (ih : ∀ ls' s', Rep .start ls' [] s' → t ≠ [] → ftLoop true t s' = answer (bound .start t) (outR ls' [] (readLabels .start t)))
    (hbt : t ≠ [] → b = bound .start t) :
    (do let s ← ftOrdinary 46 t.isEmpty s
        if s.done = true then ftFinish true t s else ftLoop true t s) = answer b (outR (ls ++ [cur]) [] (readLabels .start t)) := by
  rw [ftOrdinary_inLabel h 46 _ hl, if_pos rfl, if_neg hc]
  have hv : ∀ l ∈ ls ++ [cur], ValidLabel l := by
    intro l hl'
    rcases List.mem_append.1 hl' with h' | h'
    · exact h.valid l h'
    · rw [List.mem_singleton] at h'; subst h'
      exact ⟨List.length_pos_iff.2 hc, h.cur63⟩
  have hlen := inLabel_length h
  have hw : (wire (ls ++ [cur])).length = s.data.length := by rw [hlen]; simp; omega
  by_cases ht : t = []
  · subst ht
    simp only [List.isEmpty_nil, if_true, Res.bind_ok]
    have : outR (ls ++ [cur]) [] (readLabels .start []) = some (ls ++ [cur]) := by
      simp [readLabels, outR, dropFinal]
    rw [this, answer, if_pos ⟨hv, by rw [nameWire, List.length_append, hw]; simpa using hb rfl⟩]
    simp only [ftFinish, if_true, Res.pure_eq, nameWire_eq]
  · rw [if_neg (by simpa using ht)]
    simp only [Res.bind_ok]
    rw [if_neg (by simp [h.done])]
    rw [hbt ht]
    exact ih (ls ++ [cur]) _ ⟨rfl, rfl, hv, rfl, rfl, by rw [hw]; exact hl, h.done⟩ ht

/-- `\\DDD`: the second and the third digit -/
theorem number_step {ls : List Label} {cur : Label} {s : Ft} {c : UInt8} {t : List UInt8} {b : Nat} (h : InLabel s ls cur) (hc : cur ≠ [])
    (hdig : isDigit c = true) (hl : s.data.length < 255)
    (ih : ∀ u cur' s', u.length ≤ t.length → Rep .inside ls cur' s' → ftLoop true u s' = answer (bound .inside u) (outR ls cur' (readLabels .inside u)))
    (hbt : ∀ d e u, t = d :: e :: u → isDigit d = true → isDigit e = true → b = bound .inside u) :
    (do let s ← ftEscdecimal c { s with digits := 0, value := 0, state := .Escdecimal }
        if s.done = true then ftFinish true t s else ftLoop true t s) = answer b (outR ls cur (readNumber3 c t)) := by
  have e1 : ftEscdecimal c { s with digits := 0, value := 0, state := .Escdecimal } =
      .ok { s with digits := 1, value := c.toNat - 48, state := .Escdecimal } := by
    unfold ftEscdecimal
    rw [ensure_bind_ok hdig]
    simp
  rw [e1, Res.bind_ok, if_neg (by simp [h.done])]
  cases t with
  | nil =>
    simp only [ftLoop, ftFinish, h.done, Bool.false_eq_true, if_false, readNumber3, outR, answer]
    rw [ensure_bind_ok (by simp only [MAX_WIRE_LEN]; omega), assertR_bind_ok (by trivial), ensure_bind_err (by simp)]
  | cons d t =>
    simp only [ftLoop]
    rw [if_neg (by simp only [MAX_WIRE_LEN]; omega)]
    simp only [ftChar]
    by_cases hd : isDigit d = true
    · have e2 : ftEscdecimal d { s with digits := 1, value := c.toNat - 48, state := .Escdecimal } =
          .ok { s with digits := 2, value := (c.toNat - 48) * 10 + (d.toNat - 48), state := .Escdecimal } := by
        unfold ftEscdecimal
        rw [ensure_bind_ok hd]
        simp
      rw [e2, Res.bind_ok, if_neg (by simp [h.done])]
      cases t with
      | nil =>
        simp only [ftLoop, ftFinish, h.done, Bool.false_eq_true, if_false, readNumber3, outR, answer]
        rw [ensure_bind_ok (by simp only [MAX_WIRE_LEN]; omega), assertR_bind_ok (by trivial), ensure_bind_err (by simp)]
      | cons e u =>
        simp only [ftLoop]
        rw [if_neg (by simp only [MAX_WIRE_LEN]; omega)]
        simp only [ftChar]
        simp only [readNumber3]
        have digs : ∀ x : UInt8, isDigit x = true ↔ 48 ≤ x ∧ x ≤ 57 := by intro x; simp [isDigit]
        by_cases he : isDigit e = true
        · by_cases hv : ((c.toNat - 48) * 10 + (d.toNat - 48)) * 10 + (e.toNat - 48) ≤ 255
          · have h3 : threeDigits c d e = true := by
              simp only [threeDigits, Bool.and_eq_true, decide_eq_true_eq]
              refine ⟨⟨⟨⟨⟨⟨((digs c).1 hdig).1, ((digs c).1 hdig).2⟩, ((digs d).1 hd).1⟩, ((digs d).1 hd).2⟩, ((digs e).1 he).1⟩, ((digs e).1 he).2⟩, by omega⟩
            rw [if_pos h3, outR_push]
            by_cases h63 : cur.length + 1 ≤ 63
            · have e3 : ftEscdecimal e { s with digits := 2, value := (c.toNat - 48) * 10 + (d.toNat - 48), state := .Escdecimal } =
                  .ok { s with digits := 3, value := ((c.toNat - 48) * 10 + (d.toNat - 48)) * 10 + (e.toNat - 48), count := s.count + 1, data := s.data ++ [e], state := .Ordinary } := by
                unfold ftEscdecimal
                rw [ensure_bind_ok he]
                simp only
                rw [if_pos trivial, ensure_bind_ok hv, ensure_bind_ok (by simp only [h.count, MAX_LABEL_LEN]; exact h63)]
                rfl
              rw [e3, Res.bind_ok, if_neg (by simp [h.done]), hbt d e u rfl hd he]
              exact ih u (cur ++ [e]) _ (by simp; omega) ⟨rfl, by simp, h.valid, by simp [h.data], h.offs, h.small, by simp [h.count], by simp; omega, h.done⟩
            · have e3 : ftEscdecimal e { s with digits := 2, value := (c.toNat - 48) * 10 + (d.toNat - 48), state := .Escdecimal } = .err := by
                unfold ftEscdecimal
                rw [ensure_bind_ok he]
                simp only
                rw [if_pos trivial, ensure_bind_ok hv, ensure_bind_err (by simp only [h.count, MAX_LABEL_LEN]; exact h63)]
              rw [e3, answer_label (by simp; omega)]; rfl
          · have h3 : threeDigits c d e = false := by
              simp only [threeDigits, Bool.and_eq_false_iff, decide_eq_false_iff_not]
              right; omega
            rw [if_neg (by simp [h3])]
            have e3 : ftEscdecimal e { s with digits := 2, value := (c.toNat - 48) * 10 + (d.toNat - 48), state := .Escdecimal } = .err := by
              unfold ftEscdecimal
              rw [ensure_bind_ok he]
              simp only
              rw [if_pos trivial, ensure_bind_err hv]
            rw [e3]; rfl
        · have h3 : threeDigits c d e = false := by
            cases h : threeDigits c d e with
            | false => rfl
            | true =>
              simp only [threeDigits, Bool.and_eq_true, decide_eq_true_eq] at h
              exact absurd ((digs e).2 ⟨h.1.1.2, h.1.2⟩) he
          rw [if_neg (by simp [h3])]
          have e3 : ftEscdecimal e { s with digits := 2, value := (c.toNat - 48) * 10 + (d.toNat - 48), state := .Escdecimal } = .err := by
            unfold ftEscdecimal
            rw [ensure_bind_err he]
          rw [e3]; rfl
    · have e2 : ftEscdecimal d { s with digits := 1, value := c.toNat - 48, state := .Escdecimal } = .err := by
        unfold ftEscdecimal
        rw [ensure_bind_err hd]
      rw [e2]
      have : readNumber3 c (d :: t) = none := by
        cases t with
        | nil => rfl
        | cons e u =>
          simp only [readNumber3]
          rw [if_neg]
          intro h
          simp only [threeDigits, Bool.and_eq_true, decide_eq_true_eq] at h
          exact hd (by simp [isDigit, h.1.1.1.1.2, h.1.1.1.2])
      rw [this]; rfl

theorem ftLoop_out_nil (p : Place) (ls : List Label) (cur : Label) (s : Ft) (hr : Rep p ls cur s) (hp : p = .start → ([] : List UInt8) ≠ []) :
    ftLoop true [] s = answer (bound p []) (outR ls cur (readLabels p [])) := by
  cases p with
  | start => exact absurd rfl (hp rfl)
  | inside =>
    obtain ⟨hst, hc, h⟩ := hr
    have hb : bound .inside [] = 255 := by decide
    by_cases hfull : 255 ≤ s.data.length
    · rw [ftLoop_full h.done hfull, answer_full hc (by rw [← inLabel_length h]; exact hfull)]
    · simp only [ftLoop, ftFinish]
      have hcount : s.count ≠ 0 := by rw [h.count]; simpa using hc
      rw [if_neg (by simp [h.done]), ensure_bind_ok (by simp only [MAX_WIRE_LEN]; omega), assertR_bind_ok (by trivial), ensure_bind_ok hst,
        assertR_bind_ok hcount, setCount_inLabel h, Res.bind_ok, if_pos trivial]
      have : outR ls cur (readLabels .inside []) = some (ls ++ [cur]) := by
        simp [readLabels, outR, dropFinal, hc]
      have hw : (wire (ls ++ [cur])).length = s.data.length := by rw [inLabel_length h]; simp; omega
      rw [this, answer, hb, if_pos]
      · have hst' : s.offsets = starts 0 (ls ++ [cur]) := by rw [h.offs, starts_append]; simp
        simp only [Res.pure_eq, Res.ok.injEq, Prod.mk.injEq]
        refine ⟨rfl, ?_⟩
        rw [hst', hw, Nat.mod_eq_of_lt (by omega), starts_append 0 (ls ++ [cur]), hw.symm]; simp
      · refine ⟨?_, by rw [nameWire, List.length_append, hw]; simp; omega⟩
        intro l hl
        rcases List.mem_append.1 hl with h' | h'
        · exact h.valid l h'
        · rw [List.mem_singleton] at h'; subst h'
          exact ⟨List.length_pos_iff.2 hc, h.cur63⟩
  | escaped =>
    obtain ⟨hst, hc, h⟩ := hr
    simp only [ftLoop, ftFinish, readLabels, outR, answer]
    rw [if_neg (by simp [h.done])]
    by_cases hl : s.data.length < MAX_WIRE_LEN
    · rw [ensure_bind_ok hl, assertR_bind_ok (by trivial), ensure_bind_err (by rw [hst]; decide)]
    · rw [ensure_bind_err hl]

theorem ftLoop_out : ∀ (n : Nat) (w : List UInt8), w.length ≤ n → ∀ (p : Place) (ls : List Label) (cur : Label) (s : Ft), Rep p ls cur s →
    (p = .start → w ≠ []) → ftLoop true w s = answer (bound p w) (outR ls cur (readLabels p w)) := by
  intro n
  induction n with
  | zero =>
    intro w hw p ls cur s hr hp
    have : w = [] := by simpa using hw
    subst this
    exact ftLoop_out_nil p ls cur s hr hp
  | succ n ih =>
    intro w hw p ls cur s hr hp
    cases w with
    | nil => exact ftLoop_out_nil p ls cur s hr hp
    | cons c t =>
      have hlt : t.length ≤ n := by simpa using hw
      have ihs : ∀ (ls' : List Label) (s' : Ft), Rep .start ls' [] s' → t ≠ [] → ftLoop true t s' = answer (bound .start t) (outR ls' [] (readLabels .start t)) :=
        fun ls' s' h1 h2 => ih t hlt .start ls' [] s' h1 (fun _ => h2)
      have ihi : ∀ (u : List UInt8) (ls' : List Label) (cur' : Label) (s' : Ft), u.length ≤ t.length → Rep .inside ls' cur' s' →
          ftLoop true u s' = answer (bound .inside u) (outR ls' cur' (readLabels .inside u)) :=
        fun u ls' cur' s' h1 h2 => ih u (by omega) .inside ls' cur' s' h2 (by simp)
      have ihe : ∀ (ls' : List Label) (cur' : Label) (s' : Ft), Rep .escaped ls' cur' s' →
          ftLoop true t s' = answer (bound .escaped t) (outR ls' cur' (readLabels .escaped t)) :=
        fun ls' cur' s' h2 => ih t hlt .escaped ls' cur' s' h2 (by simp)
      have digs : ∀ x : UInt8, isDigit x = true ↔ 48 ≤ x ∧ x ≤ 57 := by intro x; simp [isDigit]
      cases p with
      | start =>
        obtain ⟨hst, rfl, h⟩ := hr
        by_cases hfull : 255 ≤ s.data.length
        · rw [ftLoop_full h.done hfull, answer_full_start (by rw [← h.data]; exact hfull)]
        · have hwl : (wire ls).length < 255 := by rw [← h.data]; omega
          simp only [ftLoop]
          rw [if_neg (by simp only [MAX_WIRE_LEN]; omega)]
          simp only [ftChar, hst, ftStart]
          have hin : InLabel { s with data := s.data ++ [0], count := 0, state := .Ordinary } ls [] :=
            ⟨h.valid, by simp [h.data], h.offs, h.small, rfl, by simp, h.done⟩
          rw [readLabels_start]
          by_cases h46 : c = 46
          · subst h46
            rw [if_neg (by decide), ftOrdinary_inLabel hin 46 _ (by simp; omega), if_pos rfl, if_pos rfl, if_pos rfl]
            rw [outR_map _ _ _ (readLabels_ne _ _), answer_bad (l := []) (by simp) (by simp [ValidLabel])]
            rfl
          · rw [if_neg h46]
            by_cases h92 : c = 92
            · subst h92
              rw [if_pos rfl, if_pos rfl]
              have e : ftInitialescape 92 t.isEmpty { s with data := s.data ++ [0], count := 0, state := .Initialescape } =
                  .ok { s with data := s.data ++ [0] ++ [92], count := 1, state := .Escape } := by
                unfold ftInitialescape
                rw [ensure_bind_ok (by decide)]
                unfold ftEscape
                rw [if_pos (by decide), ensure_bind_ok (by simp [MAX_LABEL_LEN])]
                unfold ftOrdinary
                rw [if_neg (by decide), if_pos rfl]
                rfl
              rw [e, Res.bind_ok, if_neg (by simp [h.done]), outR_push, bound_step (q := .escaped) (by simp) (by simp)]
              exact ihe ls ([] ++ [92]) _ ⟨rfl, by simp, h.valid, by simp [h.data], h.offs, h.small, rfl, by simp, h.done⟩
            · rw [if_neg h92, if_neg h92, ftOrdinary_inLabel hin c _ (by simp; omega), if_neg h46, if_neg h92, if_pos (by simp)]
              rw [Res.bind_ok, if_neg (by simp [h.done]), outR_push, bound_step (q := .inside) (by simp [h92]) (by simp)]
              exact ihi t ls ([] ++ [c]) _ (Nat.le_refl _) ⟨rfl, by simp, h.valid, by simp [h.data], h.offs, h.small, rfl, by simp, h.done⟩
      | inside =>
        obtain ⟨hst, hc, h⟩ := hr
        by_cases hfull : 255 ≤ s.data.length
        · rw [ftLoop_full h.done hfull, answer_full hc (by rw [← inLabel_length h]; exact hfull)]
        · simp only [ftLoop]
          rw [if_neg (by simp only [MAX_WIRE_LEN]; omega)]
          simp only [ftChar, hst]
          rw [readLabels_inside]
          by_cases h46 : c = 46
          · subst h46
            rw [if_pos rfl, outR_map _ _ _ (readLabels_ne _ _)]
            exact dot_step h hc (by omega) (fun _ => by unfold bound; split <;> omega) ihs (fun _ => bound_step (by simp) (by simp))
          · rw [if_neg h46, ftOrdinary_inLabel h c _ (by omega), if_neg h46]
            by_cases h92 : c = 92
            · subst h92
              rw [if_pos rfl, if_pos rfl, Res.bind_ok, if_neg (by simp [h.done]), bound_step (q := .escaped) (by simp) (by simp)]
              exact ihe ls cur _ ⟨rfl, hc, h.valid, h.data, h.offs, h.small, h.count, h.cur63, h.done⟩
            · rw [if_neg h92, if_neg h92, outR_push]
              by_cases h63 : cur.length + 1 ≤ 63
              · rw [if_pos h63, Res.bind_ok, if_neg (by simp [h.done]), bound_step (q := .inside) (by simp [h92]) (by simp)]
                exact ihi t ls (cur ++ [c]) _ (Nat.le_refl _) ⟨hst, by simp, h.valid, by simp [h.data], h.offs, h.small, by simp [h.count], by simp; omega, h.done⟩
              · rw [if_neg h63, answer_label (by simp; omega)]; rfl
      | escaped =>
        obtain ⟨hst, hc, h⟩ := hr
        by_cases hfull : 255 ≤ s.data.length
        · rw [ftLoop_full h.done hfull, answer_full hc (by rw [← inLabel_length h]; exact hfull)]
        · simp only [ftLoop]
          rw [if_neg (by simp only [MAX_WIRE_LEN]; omega)]
          simp only [ftChar, hst]
          rw [readLabels_escaped]
          by_cases hdig : isDigit c = true
          · have h1 : c ≠ 46 := by intro h'; subst h'; simp [isDigit] at hdig
            have h2 : c ≠ 92 := by intro h'; subst h'; simp [isDigit] at hdig
            rw [if_neg h1, if_neg h2, if_pos ((digs c).1 hdig)]
            unfold ftEscape
            rw [if_neg (by simp [hdig])]
            refine number_step h hc hdig (by omega) (fun u cur' s' h1 h2 => ihi u ls cur' s' h1 h2) ?_
            intro d e u ht hd he
            have d2 : d ≠ 92 := by intro h'; subst h'; simp [isDigit] at hd
            have e2 : e ≠ 92 := by intro h'; subst h'; simp [isDigit] at he
            rw [ht, bound_step (q := .inside) (by simp [h2]) (by simp), bound_step (q := .inside) (by simp [d2]) (by simp),
              bound_step (q := .inside) (by simp [e2]) (by simp)]
          · have hnd : isDigit c = false := by simpa using hdig
            unfold ftEscape
            rw [if_pos hnd]
            by_cases h63 : cur.length + 1 ≤ 63
            · rw [ensure_bind_ok (by simp only [h.count, MAX_LABEL_LEN]; exact h63)]
              have hin := inLabel_push h c .Ordinary h63
              have hlen := inLabel_length h
              by_cases h46 : c = 46
              · subst h46
                rw [if_pos rfl, outR_push, outR_map _ _ _ (readLabels_ne _ _)]
                refine dot_step hin (by simp) (by simp; omega) ?_ ihs ?_
                · intro ht
                  subst ht
                  have : bound .escaped [46] = 256 := by decide
                  rw [this]; simp; omega
                · intro ht
                  exact bound_step (by simp) (fun _ => by simpa using ht)
              · rw [if_neg h46]
                by_cases h92 : c = 92
                · subst h92
                  rw [if_pos rfl]
                  have e : ∀ s0 : Ft, ftOrdinary 92 t.isEmpty s0 = .ok { s0 with state := .Escape } := by
                    intro s0; unfold ftOrdinary; rw [if_neg (by decide), if_pos rfl]; rfl
                  rw [e, Res.bind_ok, if_neg (by simp [h.done]), outR_push, bound_step (q := .escaped) (by simp) (by simp)]
                  exact ihe ls (cur ++ [92]) _ ⟨rfl, by simp, h.valid, by simp [h.data], h.offs, h.small, by simp [h.count], by simp; omega, h.done⟩
                · rw [if_neg h92, if_neg (fun h' => hdig ((digs c).2 h')), outR_push, outR_push]
                  rw [ftOrdinary_inLabel hin c _ (by simp; omega), if_neg h46, if_neg h92]
                  by_cases h64 : (cur ++ [c]).length + 1 ≤ 63
                  · rw [if_pos h64, Res.bind_ok, if_neg (by simp [h.done]), bound_step (q := .inside) (by simp [h92]) (by simp [h46])]
                    have hin2 := inLabel_push hin c .Ordinary h64
                    exact ihi t ls _ _ (Nat.le_refl _) ⟨rfl, by simp, hin2⟩
                  · rw [if_neg h64, answer_label (by simp at h64 ⊢; omega)]; rfl
            · rw [ensure_bind_err (by simp only [h.count, MAX_LABEL_LEN]; exact h63)]
              have nd : ¬ (48 ≤ c ∧ c ≤ 57) := fun h' => hdig ((digs c).2 h')
              have big : 63 < (cur ++ [c]).length := by simp; omega
              have big2 : 63 < (cur ++ [c] ++ [c]).length := by simp; omega
              symm
              split
              · rename_i h46; subst h46; rw [outR_push]; exact answer_label big
              · split
                · rename_i h92; subst h92; rw [outR_push]; exact answer_label big
                · rw [outR_push, outR_push]; exact answer_label big2

theorem outR_nil (r : Option (List Label)) (h : r ≠ some []) : outR [] [] r = r.map dropFinal := by
  cases r with
  | none => rfl
  | some r =>
    cases r with
    | nil => exact absurd rfl h
    | cons x xs => simp [outR]

theorem answer_map (b : Nat) (o : Option (List Label)) :
    (do let (d, f) ← answer b o; pure (⟨d, f⟩ : Name)) = match o with | some ls => if Fits b ls then .ok (ofLabels ls) else .err | none => .err := by
  cases o with
  | none => rfl
  | some ls =>
    unfold answer
    by_cases h : Fits b ls
    · simp only [if_pos h, Res.bind_ok, Res.pure_eq, Res.ok.injEq]
      rw [nameWire_eq]; rfl
    · simp only [if_neg h]; rfl

theorem new_dialect (w : List UInt8) : new w = match readName w with | some ls => .ok (ofLabels ls) | none => .err := by
  cases w with
  | nil =>
    have : readName [] = none := by decide +kernel
    rw [this]; rfl
  | cons c t =>
    unfold readName
    by_cases h46 : c = 46 ∧ t = []
    · obtain ⟨rfl, rfl⟩ := h46; rfl
    by_cases h64 : c = 64 ∧ t = []
    · obtain ⟨rfl, rfl⟩ := h64; rfl
    rw [if_neg (by
      rintro (h | h)
      · injection h with h1 h2; exact h46 ⟨h1, h2⟩
      · injection h with h1 h2; exact h64 ⟨h1, h2⟩)]
    have hm := ftLoop_out _ (c :: t) (Nat.le_refl _) .start [] [] ⟨[], [0], 0, 0, 0, false, .Start⟩
      ⟨rfl, rfl, by simp, by simp, by simp, by simp, rfl⟩ (by simp)
    rw [outR_nil _ (readLabels_ne _ _)] at hm
    have hstep : c ≠ 46 → new (c :: t) = (do let (d, f) ← ftLoop true (c :: t) ⟨[], [0], 0, 0, 0, false, .Start⟩; pure ⟨d, f⟩) := by
      intro hc
      unfold new string_parse
      simp only [ftLoop]
      rw [if_neg (by simp [MAX_WIRE_LEN]), if_neg (by simp [MAX_WIRE_LEN])]
      simp only [ftChar, ftInit]
      rw [if_neg hc, if_neg (by simpa using h64)]
    have hb : bound .start (c :: t) = if [92, 46] <:+ (c :: t) then 256 else 255 := by
      unfold bound
      have he : EscDot .start (c :: t) ↔ [92, 46] <:+ (c :: t) := by simp [EscDot]
      by_cases h : [92, 46] <:+ (c :: t)
      · rw [if_pos (he.2 h), if_pos h]
      · rw [if_neg (fun h' => h (he.1 h')), if_neg h]
    by_cases hc : c = 46
    · subst hc
      have ht : t ≠ [] := fun h => h46 ⟨rfl, h⟩
      have e : new (46 :: t) = .err := by
        unfold new string_parse
        simp only [ftLoop]
        rw [if_neg (by simp [MAX_WIRE_LEN])]
        simp only [ftChar, ftInit]
        rw [if_pos trivial, if_neg (by simpa using ht)]
        rfl
      rw [e, readLabels_start, if_pos rfl]
      cases hr : readLabels .start t with
      | none => rfl
      | some r =>
        simp only [Option.map_some]
        rw [if_neg]
        rintro ⟨-, h1, -⟩
        cases r with
        | nil => exact readLabels_ne _ _ hr
        | cons x xs =>
          have := h1 [] (by
            rw [show ([] :: x :: xs : List Label) = [[]] ++ x :: xs from rfl, dropFinal_append]; simp)
          simp at this
    · rw [hstep hc, hm, answer_map]
      cases hr : readLabels .start (c :: t) with
      | none => rfl
      | some ls =>
        simp only [Option.map_some]
        have hne : dropFinal ls ≠ [] := by
          have : ls.flatten ≠ [] := by
            rw [readLabels_start, if_neg hc] at hr
            split at hr
            · exact push_flatten hr
            · exact push_flatten hr
          intro h0
          rw [← dropFinal_flatten, h0] at this
          exact this rfl
        by_cases hf : Fits (bound .start (c :: t)) (dropFinal ls)
        · rw [if_pos hf, if_pos ⟨hne, hf.1, by rw [← hb]; exact hf.2⟩]
        · rw [if_neg hf, if_neg (fun h => hf ⟨h.2.1, by rw [hb]; exact h.2.2⟩)]

end Name
end R53
