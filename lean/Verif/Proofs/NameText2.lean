import Verif.Proofs.NameText
/-!
# Texts without escapes, and printing
-/
namespace R53
namespace Name

/-- the labels a text adds to the complete labels `ls` and the label begun `cur` -/
def go : List Label → Label → List UInt8 → List Label
  | ls, cur, [] => ls ++ [cur]
  | ls, cur, c :: t =>
    if c = 46 then (if t = [] then ls ++ [cur] else go (ls ++ [cur]) [] t)
    else go ls (cur ++ [c]) t

theorem go_shape (ls : List Label) (cur : Label) (t : List UInt8) :
    ∃ y rest, go ls cur t = ls ++ (cur ++ y) :: rest := by
  induction t generalizing ls cur with
  | nil => exact ⟨[], [], by simp [go]⟩
  | cons c t ih =>
    simp only [go]
    by_cases hc : c = 46
    · rw [if_pos hc]
      by_cases ht : t = []
      · rw [if_pos ht]; exact ⟨[], [], by simp⟩
      · rw [if_neg ht]
        obtain ⟨y, rest, h⟩ := ih (ls ++ [cur]) []
        exact ⟨[], ([] ++ y) :: rest, by rw [h]; simp⟩
    · rw [if_neg hc]
      obtain ⟨y, rest, h⟩ := ih ls (cur ++ [c])
      exact ⟨c :: y, rest, by rw [h]; simp⟩

theorem go_pieces (t : List UInt8) (ls : List Label) (cur : Label) (hne : t ≠ []) :
    ∃ x xs, splitDots t = x :: xs ∧ go ls cur t = ls ++ (if xs ≠ [] ∧ xs.getLast? = some [] then (cur ++ x) :: xs.dropLast else (cur ++ x) :: xs) := by
  induction t generalizing ls cur with
  | nil => simp at hne
  | cons c t ih =>
    by_cases ht : t = []
    · subst ht
      by_cases hc : c = 46
      · subst hc; refine ⟨[], [[]], rfl, ?_⟩; simp [go]
      · refine ⟨[c], [], by simp [splitDots, hc], ?_⟩
        simp [go, hc]
    · by_cases hc : c = 46
      · obtain ⟨x, xs, h1, h2⟩ := ih (ls ++ [cur]) [] ht
        refine ⟨[], x :: xs, by simp [splitDots, hc, h1], ?_⟩
        simp only [go, if_pos hc, if_neg ht, h2, List.nil_append, List.append_nil, ne_eq, List.cons_ne_nil,
          not_false_eq_true, true_and, List.append_assoc]
        congr 1
        cases xs with
        | nil =>
          simp
          -- a single remaining piece is not empty here
          intro hx
          subst hx
          exfalso
          cases t with
          | nil => exact ht rfl
          | cons d u =>
            simp only [splitDots] at h1
            by_cases hd : d = 46
            · rw [if_pos hd] at h1
              simp only [List.cons.injEq] at h1
              cases u with
              | nil => simp [splitDots] at h1
              | cons e v =>
                simp only [splitDots] at h1
                split at h1
                · simp at h1
                · split at h1 <;> simp at h1
            · rw [if_neg hd] at h1; split at h1 <;> simp at h1
        | cons z zs =>
          simp only [ne_eq, List.cons_ne_nil, not_false_eq_true, true_and, List.getLast?_cons_cons, List.dropLast_cons₂]
          split <;> rfl
      · obtain ⟨x, xs, h1, h2⟩ := ih ls (cur ++ [c]) ht
        refine ⟨c :: x, xs, by simp [splitDots, hc, h1], ?_⟩
        simp only [go, if_neg hc, h2]
        simp

theorem go_dropFinal (t : List UInt8) (hne : t ≠ []) (h46 : t ≠ [46]) : go [] [] t = dropFinal (splitDots t) := by
  obtain ⟨x, xs, h1, h2⟩ := go_pieces t [] [] hne
  rw [h2, h1]
  unfold dropFinal
  cases xs with
  | nil =>
    simp
    intro hx
    subst hx
    cases t with
    | nil => exact absurd rfl hne
    | cons d u =>
      simp only [splitDots] at h1
      by_cases hd : d = 46
      · rw [if_pos hd] at h1
        simp only [List.cons.injEq] at h1
        cases u with
        | nil => subst hd; exact absurd rfl h46
        | cons e v =>
          simp only [splitDots] at h1
          split at h1
          · simp at h1
          · split at h1 <;> simp at h1
      · rw [if_neg hd] at h1; split at h1 <;> simp at h1
  | cons z zs => simp

theorem go_ne_nil (ls : List Label) (cur : Label) (t : List UInt8) : go ls cur t ≠ [] := by
  obtain ⟨y, rest, h⟩ := go_shape ls cur t
  rw [h]; simp

/-- a long or overflowing label list is not a valid name -/
theorem go_invalid_long {ls : List Label} {cur : Label} {t : List UInt8} (h : 63 < cur.length) : ¬ ValidName (go ls cur t) := by
  intro hv
  obtain ⟨y, rest, hg⟩ := go_shape ls cur t
  rw [hg] at hv
  have := (hv.1 (cur ++ y) (by simp)).2
  simp at this; omega

theorem go_invalid_total {ls : List Label} {cur : Label} {t : List UInt8} (h : 255 ≤ (wire (ls ++ [cur])).length) :
    ¬ ValidName (go ls cur t) := by
  intro hv
  obtain ⟨y, rest, hg⟩ := go_shape ls cur t
  rw [hg] at hv
  have := hv.2
  simp only [nameWire, wire_append, wire_cons, List.length_append, List.length_cons, wire_nil, List.length_nil] at this h
  omega

/-- the loop inside a label, on a text without backslash -/
theorem ftLoop_plain (t : List UInt8) (s : Ft) (ls : List Label) (cur : Label) (h : InLabel s ls cur)
    (hst : s.state = .Ordinary) (hcur : t = [] → cur ≠ []) (hnb : 92 ∉ t) :
    ftLoop true t s =
      if ValidName (go ls cur t) then .ok (wire (go ls cur t ++ [[]]), starts 0 (go ls cur t ++ [[]])) else .err := by
  have hw : s.data.length = (wire (ls ++ [cur])).length := by rw [h.data]; simp
  have hoff : s.offsets = starts 0 (ls ++ [cur]) := by rw [h.offs, starts_append]; simp
  induction t generalizing s ls cur with
  | nil =>
    have hne := hcur rfl
    simp only [ftLoop, ftFinish, h.done, Bool.false_eq_true, if_false]
    by_cases hl : s.data.length < 255
    · rw [ensure_bind_ok (by exact hl), assertR_bind_ok (by trivial), ensure_bind_ok hst,
        assertR_bind_ok (by rw [h.count]; simpa using hne), setCount_inLabel h, Res.bind_ok, if_pos (by trivial)]
      have hv : ValidName (go ls cur []) := by
        simp only [go]
        refine ⟨?_, ?_⟩
        · intro l hl'
          rcases List.mem_append.mp hl' with h' | h'
          · exact h.valid l h'
          · simp only [List.mem_singleton] at h'; subst h'
            exact ⟨List.length_pos_iff.mpr hne, h.cur63⟩
        · rw [nameWire, List.length_append]; simp only [List.length_singleton]; omega
      rw [if_pos hv]
      simp only [go, Res.pure_eq, Res.ok.injEq, Prod.mk.injEq]
      refine ⟨by rw [wire_append (ls ++ [cur])]; simp, ?_⟩
      rw [hoff, Nat.mod_eq_of_lt (by omega), starts_append 0 (ls ++ [cur])]; simp
    · rw [ensure_bind_err (by simpa [MAX_WIRE_LEN] using hl), if_neg (go_invalid_total (by omega))]
  | cons c t ih =>
    simp only [ftLoop]
    by_cases hl : s.data.length < 255
    · rw [if_neg (by simp only [MAX_WIRE_LEN]; omega)]
      simp only [ftChar, hst]
      rw [ftOrdinary_inLabel h c _ (by omega)]
      have hc92 : c ≠ 92 := fun h' => hnb (by simp [h'])
      have hnb' : 92 ∉ t := fun h' => hnb (by simp [h'])
      by_cases hc : c = 46
      · rw [if_pos hc]
        by_cases h0 : cur = []
        · rw [if_pos h0]
          simp only [Res.bind_err]
          rw [if_neg]
          intro hv
          simp only [go, if_pos hc] at hv
          have : ([] : Label) ∈ (if t = [] then ls ++ [cur] else go (ls ++ [cur]) [] t) := by
            split
            · simp [h0]
            · obtain ⟨y, rest, hg⟩ := go_shape (ls ++ [cur]) [] t
              rw [hg]; simp [h0]
          have := (hv.1 _ this).1
          simp at this
        · rw [if_neg h0]
          have hvl : ∀ l ∈ ls ++ [cur], ValidLabel l := by
            intro l hl'
            rcases List.mem_append.mp hl' with h' | h'
            · exact h.valid l h'
            · simp only [List.mem_singleton] at h'; subst h'
              exact ⟨List.length_pos_iff.mpr h0, h.cur63⟩
          by_cases ht : t = []
          · subst ht
            simp only [List.isEmpty_nil, if_true, Res.bind_ok, ftFinish]
            have hv : ValidName (go ls cur [c]) := by
              simp only [go, if_pos hc, if_true]
              refine ⟨hvl, ?_⟩
              rw [nameWire, List.length_append]; simp only [List.length_singleton]; omega
            rw [if_pos hv]
            simp only [go, if_pos hc, if_true]
            rfl
          · rw [if_neg (by simpa using ht)]
            simp only [Res.bind_ok]
            rw [if_neg (by simp [h.done])]
            simp only [go, if_pos hc, if_neg ht]
            -- the next character starts a label
            cases t with
            | nil => exact absurd rfl ht
            | cons d u =>
              have hd92 : d ≠ 92 := fun h' => hnb' (by simp [h'])
              have hin : InLabel { s with data := wire (ls ++ [cur]) ++ [0], offsets := starts 0 (ls ++ [cur]) ++ [(wire (ls ++ [cur])).length], count := 0, state := .Ordinary } (ls ++ [cur]) [] :=
                ⟨hvl, by simp, rfl, by omega, rfl, by simp, h.done⟩
              by_cases hw255 : (wire (ls ++ [cur])).length + 1 < 255
              · have := ih _ (ls ++ [cur]) [] hin rfl (by simp) hnb' (by simp) (by rw [starts_append 0 (ls ++ [cur])]; simp)
                rw [← this]
                simp only [ftLoop]
                rw [if_neg (by simp only [MAX_WIRE_LEN]; omega),
                  if_neg (by simp only [MAX_WIRE_LEN]; rw [List.length_append]; simp; simp at hw255; omega)]
                simp only [ftChar, ftStart, if_neg hd92]
              · -- no room for another label
                rw [if_neg (go_invalid_total (by rw [wire_append (ls ++ [cur]), List.length_append]; simp; simp at hw255; omega))]
                simp only [ftLoop]
                rw [if_neg (by simp only [MAX_WIRE_LEN]; omega)]
                simp only [ftChar, ftStart, if_neg hd92]
                rw [ftOrdinary_inLabel hin d _ (by simp; simp at hw; omega)]
                by_cases hd : d = 46
                · rw [if_pos hd]; simp
                · rw [if_neg hd, if_neg hd92, if_pos (by simp), Res.bind_ok]
                  rw [if_neg (by simp [h.done])]
                  have hbig : ∀ v : List UInt8, ftLoop true v { s with data := wire (ls ++ [cur]) ++ [0] ++ [d], offsets := starts 0 (ls ++ [cur]) ++ [(wire (ls ++ [cur])).length], count := 0 + 1, state := .Ordinary } = .err := by
                    intro v
                    have hge : ¬ ((wire (ls ++ [cur]) ++ [0] ++ [d]).length < MAX_WIRE_LEN) := by
                      rw [List.length_append, List.length_append]; simp only [List.length_singleton, MAX_WIRE_LEN]; omega
                    cases v with
                    | nil =>
                      simp only [ftLoop, ftFinish, h.done, Bool.false_eq_true, if_false]
                      rw [ensure_bind_err hge]
                    | cons e v =>
                      simp only [ftLoop]
                      rw [if_pos (by omega)]
                      simp only [ftFinish, h.done, Bool.false_eq_true, if_false]
                      rw [ensure_bind_err hge]
                  exact hbig u
      · rw [if_neg hc, if_neg hc92]
        simp only [go, if_neg hc]
        by_cases h63 : cur.length + 1 ≤ 63
        · rw [if_pos h63]
          simp only [Res.bind_ok]
          rw [if_neg (by simp [h.done])]
          have hin := inLabel_push h c .Ordinary h63
          rw [← ih _ ls (cur ++ [c]) hin rfl (by simp) hnb' (by simp only; rw [h.data]; simp) (by simp only; rw [h.offs, starts_append]; simp)]
          rw [← hst]
        · rw [if_neg h63]
          simp only [Res.bind_err]
          rw [if_neg (go_invalid_long (by simp; omega))]
    · rw [if_pos (by simp only [MAX_WIRE_LEN]; omega)]
      simp only [ftFinish, h.done, Bool.false_eq_true, if_false]
      rw [ensure_bind_err (by simpa [MAX_WIRE_LEN] using hl), if_neg (go_invalid_total (by omega))]

theorem new_plain (t : List UInt8) (hnb : 92 ∉ t) :
    new t = match denotes t with | some ls => .ok (ofLabels ls) | none => .err := by
  cases t with
  | nil => rfl
  | cons c t =>
    have hc92 : c ≠ 92 := fun h' => hnb (by simp [h'])
    unfold new string_parse
    simp only [ftLoop]
    rw [if_neg (by simp [MAX_WIRE_LEN])]
    simp only [ftChar, ftInit]
    by_cases h46 : c = 46
    · rw [if_pos h46]
      subst h46
      cases t with
      | nil => rfl
      | cons d u =>
        rw [if_neg (by simp)]
        have : denotes (46 :: d :: u) = none := by
          unfold denotes
          rw [if_neg (by simp), if_neg]
          rintro ⟨_, hv⟩
          rw [← go_dropFinal _ (by simp) (by simp)] at hv
          simp only [go, if_true, List.cons_ne_nil, if_false, List.nil_append] at hv
          obtain ⟨y, rest, hg⟩ := go_shape [[]] [] (d :: u)
          have hv' : ValidName (go [[]] [] (d :: u)) := hv
          rw [hg] at hv'
          have := (hv'.1 [] (by simp)).1
          simp at this
        rw [this]; rfl
    · rw [if_neg h46]
      by_cases h64 : c = 64 ∧ t = []
      · obtain ⟨rfl, rfl⟩ := h64; rfl
      · rw [if_neg (by simpa using h64)]
        have hin : InLabel ⟨[0], [0], 0, 0, 0, false, .Ordinary⟩ [] [] :=
          ⟨by simp, by simp, by simp, by simp, rfl, by simp, rfl⟩
        have := ftLoop_plain (c :: t) _ [] [] hin rfl (by simp) hnb
        have hstart : ftLoop true (c :: t) ⟨[0], [0], 0, 0, 0, false, .Ordinary⟩ =
            (do
              let s ← ftStart c t.isEmpty ⟨[], [0], 0, 0, 0, false, .Start⟩
              if s.done = true then ftFinish true t s else ftLoop true t s) := by
          simp only [ftLoop, ftChar, ftStart, if_neg hc92]
          rw [if_neg (by simp [MAX_WIRE_LEN])]
          rfl
        rw [hstart] at this
        rw [this]
        have hd : denotes (c :: t) = if ValidName (go [] [] (c :: t)) then some (go [] [] (c :: t)) else none := by
          unfold denotes
          rw [if_neg (by simp; constructor
                         · intro h; exact absurd h h46
                         · intro h h'; exact h64 ⟨h, h'⟩)]
          rw [← go_dropFinal _ (by simp) (by intro h; simp at h; exact h46 h.1)]
          simp only [go_ne_nil, ne_eq, not_false_eq_true, true_and]
        rw [hd]
        by_cases hv : ValidName (go [] [] (c :: t))
        · simp only [if_pos hv]; rfl
        · simp only [if_neg hv]; rfl

/-! ## printing -/

/-- labels joined with dots, each followed by one -/
def dotted : List Label → List UInt8
  | [] => []
  | l :: ls => l ++ 46 :: dotted ls

theorem dispByte_plain (c : UInt8) (h : Plain c) : LabelSlice.dispByte c = [c] := by
  unfold Plain at h
  unfold LabelSlice.dispByte LabelSlice.special
  rw [if_neg (by simpa using h.2.2), if_pos]
  have h1 := UInt8.le_iff_toNat_le.mp h.1
  have h2 := UInt8.le_iff_toNat_le.mp h.2.1
  simp at h1 h2
  exact ⟨UInt8.lt_iff_toNat_lt.mpr (by simp; omega), UInt8.lt_iff_toNat_lt.mpr (by simp; omega)⟩

theorem flatMap_plain (l : Label) (h : ∀ c ∈ l, Plain c) : l.flatMap LabelSlice.dispByte = l := by
  induction l with
  | nil => rfl
  | cons c l ih =>
    rw [List.flatMap_cons, dispByte_plain c (h c (by simp)), ih (fun x hx => h x (by simp [hx]))]; rfl

/-- the printing loop with text `buf` so far (empty or a printed label) -/
theorem dispLoop_plain (ls : List Label) (buf : List UInt8) (hv : ∀ l ∈ ls, ValidLabel l) (hp : ∀ l ∈ ls, ∀ c ∈ l, Plain c) :
    LabelSlice.dispLoop (wire (ls ++ [[]])) buf = .ok (if buf = [] then (if ls = [] then [46] else dotted ls) else buf ++ 46 :: dotted ls) := by
  induction ls generalizing buf with
  | nil =>
    rw [List.nil_append, wire_root, LabelSlice.dispLoop]
    simp [dotted]
    try (intro h; rw [h]; rfl)
  | cons l ls ih =>
    have hl := hv l (by simp)
    have hu := u8_len hl.2
    rw [List.cons_append, wire_cons, LabelSlice.dispLoop]
    have h0 : UInt8.ofNat l.length ≠ 0 := by
      intro h'; have := congrArg UInt8.toNat h'; rw [hu] at this; simp at this; have := hl.1; subst_vars; simp_all
    rw [if_neg h0]
    simp only [hu]
    rw [if_neg (by simp), List.drop_left, List.take_left, flatMap_plain l (hp l (by simp)),
      ih _ (fun x hx => hv x (by simp [hx])) (fun x hx => hp x (by simp [hx]))]
    have hne : l ≠ [] := by intro h'; have := hl.1; rw [h'] at this; simp at this
    by_cases hb : buf = []
    · subst hb
      simp [hne, dotted]
    · simp [hb, dotted]

theorem to_string_plain {ls : List Label} (hv : ValidName ls) (hp : ∀ l ∈ ls, ∀ c ∈ l, Plain c) :
    to_string (ofLabels ls) = .ok (if ls = [] then [46] else dotted ls) := by
  unfold to_string
  rw [LabelSlice.from_name_ofLabels, Res.bind_ok]
  unfold LabelSlice.to_string LabelSlice.bytes LabelSlice.len
  simp only [ofLabels_offsets, ofLabels_raw]
  have hlast : ls.length < (ls ++ [([] : Label)]).length := by simp
  have h0 : 0 < (ls ++ [([] : Label)]).length := by simp
  have := hv.wire_le
  rw [starts_idx _ _ h0, Res.bind_ok, starts_idx _ _ hlast, Res.bind_ok, wire_idx_len _ _ hlast, Res.bind_ok]
  have e : (ls ++ [([] : Label)])[ls.length] = [] := by simp
  rw [e, u8_len (by simp), cadd8_ok (by simp), Res.bind_ok, Res.bind_ok]
  simp only [List.take_zero, wire_nil, List.length_nil, List.take_left]
  rw [csub_ok (by omega), Res.bind_ok, cadd8_ok (by omega), Res.bind_ok, slice_ok (by omega) (by simp), Res.bind_ok]
  rw [List.drop_zero, List.take_of_length_le (by simp), dispLoop_plain ls [] hv.1 hp, if_pos rfl]

theorem splitDots_dotted (ls : List Label) (h : ∀ l ∈ ls, (46 : UInt8) ∉ l) : splitDots (dotted ls) = ls ++ [[]] := by
  have aux : ∀ (l : Label) (t : List UInt8), (46 : UInt8) ∉ l → splitDots (l ++ 46 :: t) = l :: splitDots t := by
    intro l t hl
    induction l with
    | nil => simp [splitDots]
    | cons c l ih =>
      have hc : c ≠ 46 := fun h' => hl (by simp [h'])
      simp only [List.cons_append, splitDots, if_neg hc, ih (fun h' => hl (by simp [h']))]
  induction ls with
  | nil => rfl
  | cons l ls ih =>
    rw [dotted, aux l _ (h l (by simp)), ih (fun x hx => h x (by simp [hx]))]; rfl

theorem plain_not (c : UInt8) (h : Plain c) : c ≠ 46 ∧ c ≠ 92 ∧ c ≠ 64 := by
  unfold Plain at h
  have := h.2.2
  simp at this
  exact ⟨this.2.2.2.1, this.2.2.2.2.2.1, this.2.2.2.2.2.2.1⟩

theorem new_dotted {ls : List Label} (hv : ValidName ls) (hp : ∀ l ∈ ls, ∀ c ∈ l, Plain c) :
    new (if ls = [] then [46] else dotted ls) = .ok (ofLabels ls) := by
  by_cases h0 : ls = []
  · subst h0; rfl
  · rw [if_neg h0]
    have hnb : (92 : UInt8) ∉ dotted ls := by
      clear hv h0
      induction ls with
      | nil => simp [dotted]
      | cons l ls ih =>
        simp only [dotted, List.mem_append, List.mem_cons, not_or]
        exact ⟨fun h => (plain_not _ (hp l (by simp) _ h)).2.1 rfl, by decide, ih (fun x hx => hp x (by simp [hx]))⟩
    rw [new_plain _ hnb]
    have hdf : dropFinal (splitDots (dotted ls)) = ls := by
      rw [splitDots_dotted ls (fun l hl h => (plain_not _ (hp l hl _ h)).1 rfl)]
      simp [dropFinal]
    have hd : denotes (dotted ls) = some ls := by
      unfold denotes
      rw [hdf, if_neg, if_pos ⟨h0, hv⟩]
      cases ls with
      | nil => exact absurd rfl h0
      | cons l ls =>
        have hl := hv.1 l (by simp)
        cases l with
        | nil => have := hl.1; simp at this
        | cons c l =>
          simp [dotted]
    rw [hd]

end Name
end R53
