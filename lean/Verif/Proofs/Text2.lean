import Verif.Proofs.Text
/-!
# Character-strings: what is accepted, and that nothing panics
-/
namespace R53

/-- one `<character-string>` of a text: blanks, and a quoted body of 1 to 255 octets -/
structure CharStr where
  blanks : List UInt8
  body : List UInt8
  octets : List UInt8

/-- its text -/
def CharStr.text (s : CharStr) : List UInt8 := s.blanks ++ 34 :: (s.body ++ [34])

/-- it is well formed -/
def CharStr.OK (s : CharStr) : Prop :=
  (∀ c ∈ s.blanks, Blank c) ∧ Quoted s.body s.octets ∧ s.octets ≠ [] ∧ s.octets.length ≤ 255

namespace StrBuf

theorem charLoop_end {pre : List UInt8} {fuel : Nat} {esc : Bool} {data : List UInt8} :
    charLoop (pre ++ []) fuel pre.length esc data = (.err, pre.length) := by
  rw [charLoop.eq_def]
  simp only
  rw [if_pos (by simp)]

theorem parseDigits_err {max : Nat} {c : UInt8} (hc : isAsciiDigit c = false) : ∀ (a : List UInt8) (t : List UInt8) (acc : Nat),
    parseDigits max (a ++ c :: t) acc = .err := by
  intro a
  induction a with
  | nil => intro t acc; simp [parseDigits, hc]
  | cons x a ih =>
    intro t acc
    rw [List.cons_append, parseDigits]
    split
    · simp only; split
      · exact ih _ _
      · rfl
    · rfl

theorem digit_ne_plus {c : UInt8} (hc : isAsciiDigit c = true) : c ≠ 43 ∧ c ≠ 45 := by
  revert c; apply forall_u8'; decide +kernel

theorem parseNum_digit {max : Nat} {c : UInt8} {t : List UInt8} (hc : isAsciiDigit c = true) :
    parseNum max (c :: t) = parseDigits max (c :: t) 0 := by
  unfold parseNum
  simp only
  rw [if_neg (fun h => (digit_ne_plus hc).1 h.1)]

theorem escapedNum_inv {pre t : List UInt8} {c : UInt8} (hc : isAsciiDigit c = true) :
    escapedNum (pre ++ c :: t) pre.length = .err ∨
    ∃ x y z r, x ≤ 9 ∧ y ≤ 9 ∧ z ≤ 9 ∧ 100 * x + 10 * y + z < 256 ∧
      c :: t = UInt8.ofNat (48 + x) :: UInt8.ofNat (48 + y) :: UInt8.ofNat (48 + z) :: r ∧
      escapedNum (pre ++ c :: t) pre.length = .ok (UInt8.ofNat (100 * x + 10 * y + z)) := by
  match t with
  | [] => left; unfold escapedNum; rw [csub_ok (by simp)]; simp
  | [_] => left; unfold escapedNum; rw [csub_ok (by simp)]; simp
  | c2 :: c3 :: r =>
    by_cases h2 : isAsciiDigit c2 = true
    · by_cases h3 : isAsciiDigit c3 = true
      · obtain ⟨x, hx, rfl⟩ := digit_of c hc
        obtain ⟨y, hy, rfl⟩ := digit_of c2 h2
        obtain ⟨z, hz, rfl⟩ := digit_of c3 h3
        rw [escapedNum_spec hx hy hz]
        by_cases hn : 100 * x + 10 * y + z < 256
        · right; exact ⟨x, y, z, r, hx, hy, hz, hn, rfl, by rw [if_pos hn]⟩
        · left; rw [if_neg hn]
      · left
        unfold escapedNum
        rw [csub_ok (by simp)]
        simp only [Res.bind_ok]
        rw [if_neg (by simp)]
        have := slice_cur (pre := pre) (mid := [c, c2, c3]) (r := r)
        simp only [List.cons_append, List.nil_append, List.length_cons, List.length_nil] at this
        rw [this]
        simp only [Res.bind_ok]
        unfold from_utf8
        split
        · simp only [Res.bind_ok]
          rw [parseNum_digit hc]
          have := parseDigits_err (max := 255) (c := c3) (by simpa using h3) [c, c2] [] 0
          simp only [List.cons_append, List.nil_append] at this
          rw [this]; rfl
        · rfl
    · left
      unfold escapedNum
      rw [csub_ok (by simp)]
      simp only [Res.bind_ok]
      rw [if_neg (by simp)]
      have := slice_cur (pre := pre) (mid := [c, c2, c3]) (r := r)
      simp only [List.cons_append, List.nil_append, List.length_cons, List.length_nil] at this
      rw [this]
      simp only [Res.bind_ok]
      unfold from_utf8
      split
      · simp only [Res.bind_ok]
        rw [parseNum_digit hc]
        have := parseDigits_err (max := 255) (c := c2) (by simpa using h2) [c] [c3] 0
        simp only [List.cons_append, List.nil_append] at this
        rw [this]; rfl
      · rfl

/-- what is before the quote, given that a backslash was just read (`esc`) -/
def QuotedE (esc : Bool) (body d : List UInt8) : Prop := if esc then Quoted (92 :: body) d else Quoted body d

/-- the facts about a run of the loop -/
def CharRes (pre rest data : List UInt8) (esc : Bool) (r : Res (List UInt8) × Nat) : Prop :=
  r.1 ≠ .panic ∧ pre.length ≤ r.2 ∧ r.2 ≤ (pre ++ rest).length ∧
  ∀ d', r.1 = .ok d' → ∃ body d r', QuotedE esc body d ∧ rest = body ++ 34 :: r' ∧ r.2 = pre.length + body.length + 1 ∧
    d' = data ++ d ∧ d' ≠ [] ∧ d'.length ≤ 255

theorem charLoop_inv : ∀ (fuel : Nat) (pre rest data : List UInt8) (esc : Bool), rest.length ≤ fuel → data.length ≤ 255 →
    CharRes pre rest data esc (charLoop (pre ++ rest) fuel pre.length esc data) := by
  intro fuel
  induction fuel with
  | zero =>
    intro pre rest data esc hf hd
    have : rest = [] := List.eq_nil_of_length_eq_zero (by omega)
    subst this
    rw [charLoop_end]
    exact ⟨by simp, by simp, by simp, by simp⟩
  | succ fuel ih =>
    intro pre rest data esc hf hd
    cases rest with
    | nil =>
      rw [charLoop_end]
      exact ⟨by simp, by simp, by simp, by simp⟩
    | cons c t =>
      rw [charLoop_step (by simp), idx_cur]
      simp only [List.length_cons] at hf
      simp only
      have e1 : pre ++ c :: t = (pre ++ [c]) ++ t := by simp
      have l1 : pre.length + 1 = (pre ++ [c]).length := by simp
      by_cases h1 : c = 92 ∧ esc = false
      · rw [if_pos h1]
        have := ih (pre ++ [c]) t data true (by omega) hd
        rw [← e1, ← l1] at this
        obtain ⟨a1, a2, a3, a4⟩ := this
        refine ⟨a1, by simp at a2; omega, by simp at a3 ⊢; omega, ?_⟩
        intro d' hd'
        obtain ⟨body, d, r', b1, b2, b3, b4, b5, b6⟩ := a4 d' hd'
        refine ⟨c :: body, d, r', ?_, by rw [b2]; rfl, by rw [b3]; simp; omega, b4, b5, b6⟩
        rw [h1.1, h1.2]
        exact b1
      · rw [if_neg h1]
        by_cases h2 : c = 34 ∧ esc = false
        · rw [if_pos h2]
          refine ⟨?_, by simp, by simp, ?_⟩
          · simp only; split <;> simp
          · intro d' hd'
            simp only at hd'
            split at hd'
            · cases hd'
            · cases hd'
              refine ⟨[], [], t, ?_, by rw [h2.1]; rfl, by simp, by simp, by assumption, hd⟩
              rw [h2.2]; exact .nil
        · rw [if_neg h2]
          by_cases h3 : esc = true ∧ isAsciiDigit c = true
          · rw [if_pos h3]
            rcases escapedNum_inv (pre := pre) (t := t) h3.2 with h4 | ⟨x, y, z, r, hx, hy, hz, hn, e, h4⟩
            · rw [h4]
              exact ⟨by simp, by simp, by simp, by simp⟩
            · rw [h4]
              simp only
              have l3 : pre.length + 3 = (pre ++ [UInt8.ofNat (48 + x), UInt8.ofNat (48 + y), UInt8.ofNat (48 + z)]).length := by simp
              have e3 : pre ++ c :: t = (pre ++ [UInt8.ofNat (48 + x), UInt8.ofNat (48 + y), UInt8.ofNat (48 + z)]) ++ r := by
                rw [e]; simp
              have lt : t.length = r.length + 2 := by
                have := congrArg List.length e
                simpa using this
              split
              · refine ⟨by simp, by simp, ?_, by simp⟩
                simp only [e3]; simp
              · rename_i hlen
                have := ih (pre ++ [UInt8.ofNat (48 + x), UInt8.ofNat (48 + y), UInt8.ofNat (48 + z)]) r
                  (data ++ [UInt8.ofNat (100 * x + 10 * y + z)]) false (by omega) (by omega)
                rw [← e3, ← l3] at this
                obtain ⟨a1, a2, a3, a4⟩ := this
                refine ⟨a1, by rw [← l3] at a2; omega, by rw [← e3] at a3; exact a3, ?_⟩
                intro d' hd'
                obtain ⟨body, d, r', b1, b2, b3, b4, b5, b6⟩ := a4 d' hd'
                refine ⟨UInt8.ofNat (48 + x) :: UInt8.ofNat (48 + y) :: UInt8.ofNat (48 + z) :: body,
                  UInt8.ofNat (100 * x + 10 * y + z) :: d, r', ?_, by rw [e, b2]; rfl, by rw [b3, ← l3]; simp; omega, by rw [b4]; simp, b5, b6⟩
                rw [h3.1]
                exact .number hx hy hz hn b1
          · rw [if_neg h3]
            split
            · exact ⟨by simp, by simp, by simp, by simp⟩
            · rename_i hlen
              have := ih (pre ++ [c]) t (data ++ [c]) false (by omega) (by omega)
              rw [← e1, ← l1] at this
              obtain ⟨a1, a2, a3, a4⟩ := this
              refine ⟨a1, by simp at a2; omega, by simp at a3 ⊢; omega, ?_⟩
              intro d' hd'
              obtain ⟨body, d, r', b1, b2, b3, b4, b5, b6⟩ := a4 d' hd'
              refine ⟨c :: body, c :: d, r', ?_, by rw [b2]; rfl, by rw [b3]; simp; omega, by rw [b4]; simp, b5, b6⟩
              cases esc with
              | true =>
                exact .escaped (fun h => h3 ⟨rfl, (digit_iff c).2 h⟩) b1
              | false =>
                exact .plain (fun h => h2 ⟨h, rfl⟩) (fun h => h1 ⟨h, rfl⟩) b1

/-- reading a well formed character-string -/
theorem read_char_string_ok {pre r : List UInt8} {s : CharStr} (h : s.OK) :
    read_char_string (cur pre (s.text ++ r)) = (.ok s.octets, cur (pre ++ s.text) r) := by
  obtain ⟨h1, h2, h3, h4⟩ := h
  unfold read_char_string
  have e : s.text ++ r = s.blanks ++ (34 :: (s.body ++ 34 :: r)) := by simp [CharStr.text]
  rw [e, St.bind_ok (skip_cur h1 (r := 34 :: (s.body ++ 34 :: r)) (by intro c hc; simp at hc; subst hc; decide))]
  rw [St.get_bind, is_eos_cur]
  rw [if_neg (by simp)]
  rw [St.lift_ok_bind (a := 34) (by exact idx_cur _ _ _)]
  rw [if_neg (by simp)]
  have := charLoop_quoted h2 ((cur (pre ++ s.blanks) (34 :: (s.body ++ 34 :: r))).raw.length - ((pre ++ s.blanks).length + 1))
    (pre ++ s.blanks ++ [34]) r [] (by simp [cur]; omega) (by simpa using h4)
  simp only [List.nil_append, if_neg h3] at this
  simp only [charBody, cur] at this ⊢
  simp only [List.length_append, List.append_assoc, List.singleton_append, List.length_cons, List.length_nil] at this ⊢
  simp only [Nat.zero_add] at this ⊢
  rw [show pre.length + (s.blanks.length + 1) = pre.length + s.blanks.length + 1 by omega] at this
  rw [this]
  simp only [CharStr.text, List.length_append, List.length_cons, List.append_assoc, List.cons_append, List.nil_append]
  simp only [Prod.mk.injEq, StrBuf.mk.injEq, true_and]
  simp only [List.length_nil]; omega

/-- a call of `read_char_string`: it does not panic, stays in the text, and accepts well formed character-strings only -/
theorem read_char_string_spec (pre rest : List UInt8) :
    ∃ res pre' rest', read_char_string (cur pre rest) = (res, cur pre' rest') ∧ res ≠ .panic ∧ pre' ++ rest' = pre ++ rest ∧
      ∀ d, res = .ok d → ∃ s : CharStr, s.OK ∧ s.octets = d ∧ pre' = pre ++ s.text ∧ rest = s.text ++ rest' := by
  obtain ⟨w, r, rfl, hw, hr⟩ := blanks_ahead rest
  unfold read_char_string
  rw [St.bind_ok (skip_cur hw hr)]
  rw [St.get_bind, is_eos_cur]
  cases r with
  | nil =>
    rw [if_pos (by simp)]
    exact ⟨.err, pre ++ w, [], rfl, by simp, by simp, by simp⟩
  | cons c t =>
    rw [if_neg (by simp)]
    rw [St.lift_ok_bind (a := c) (by exact idx_cur _ _ _)]
    by_cases hc : c = 34
    · subst hc
      rw [if_neg (by simp)]
      have := charLoop_inv ((cur (pre ++ w) (34 :: t)).raw.length - ((pre ++ w).length + 1)) (pre ++ w ++ [34]) t [] false (by simp [cur]; omega) (by simp)
      generalize hg : charLoop ((pre ++ w ++ [34]) ++ t) ((cur (pre ++ w) (34 :: t)).raw.length - ((pre ++ w).length + 1)) (pre ++ w ++ [34]).length false [] = g at this
      have hg2 : charLoop (cur (pre ++ w) (34 :: t)).raw ((cur (pre ++ w) (34 :: t)).raw.length - ((cur (pre ++ w) (34 :: t)).pos + 1)) ((cur (pre ++ w) (34 :: t)).pos + 1) false [] = g := by
        rw [← hg]; simp [cur, Nat.add_assoc]
      obtain ⟨a1, a2, a3, a4⟩ := this
      have hcur : ({ cur (pre ++ w) (34 :: t) with pos := g.2 } : StrBuf) = cur ((pre ++ w ++ [34] ++ t).take g.2) ((pre ++ w ++ [34] ++ t).drop g.2) := by
        unfold cur
        rw [List.take_append_drop, List.length_take, Nat.min_eq_left (by simpa using a3)]
        simp
      refine ⟨g.1, (pre ++ w ++ [34] ++ t).take g.2, (pre ++ w ++ [34] ++ t).drop g.2, ?_, a1, ?_, ?_⟩
      · unfold charBody
        simp only [hg2]
        rw [← hcur]
      · rw [List.take_append_drop]; simp
      · intro d hd
        obtain ⟨body, d0, r', b1, b2, b3, b4, b5, b6⟩ := a4 d hd
        rw [List.nil_append] at b4
        subst b4
        refine ⟨⟨w, body, d⟩, ⟨hw, b1, b5, b6⟩, rfl, ?_, ?_⟩
        · rw [b3, b2]
          have : pre ++ w ++ [34] ++ (body ++ 34 :: r') = (pre ++ (CharStr.mk w body d).text) ++ r' := by simp [CharStr.text]
          rw [this, List.take_left']
          simp [CharStr.text]; omega
        · rw [b3, b2]
          have : pre ++ w ++ [34] ++ (body ++ 34 :: r') = (pre ++ (CharStr.mk w body d).text) ++ r' := by simp [CharStr.text]
          rw [this, List.drop_left']
          · simp [CharStr.text]
          · simp [CharStr.text]; omega
    · rw [if_pos (by simp [hc])]
      exact ⟨.err, pre ++ w, c :: t, rfl, by simp, by simp, by simp⟩

/-- after a character-string was read the rest is a text -/
theorem utf8_after {s : CharStr} {r : List UInt8} (h : isUtf8 (s.text ++ r) = true) : isUtf8 r = true := by
  have e : s.text ++ r = (s.blanks ++ 34 :: s.body) ++ (34 :: r) := by simp [CharStr.text]
  rw [e] at h
  have := (isUtf8_split h (by intro c hc; simp at hc; subst hc; decide)).2
  rw [isUtf8.eq_def] at this
  simpa using this

/-! ## `read_text` -/

theorem textLoop_ok : ∀ (ss : List CharStr) (fuel : Nat) (pre : List UInt8) (data : List (List UInt8)), ss ≠ [] →
    ss.length ≤ fuel → (∀ s ∈ ss, s.OK) →
    textLoop fuel data (cur pre (ss.flatMap CharStr.text)) =
      (.ok (data ++ ss.map CharStr.octets), cur (pre ++ ss.flatMap CharStr.text) []) := by
  intro ss
  induction ss with
  | nil => intro fuel pre data h; exact absurd rfl h
  | cons s ss ih =>
    intro fuel pre data _ hf h
    match fuel, hf with
    | fuel + 1, hf =>
      rw [textLoop, List.flatMap_cons, St.bind_ok (read_char_string_ok (h s (by simp))), St.get_bind, is_eos_cur]
      cases ss with
      | nil => simp
      | cons s2 ss =>
        rw [if_neg (by simp [CharStr.text])]
        rw [ih fuel (pre ++ s.text) (data ++ [s.octets]) (by simp) (by simpa using hf) (fun x hx => h x (by simp [hx]))]
        simp

theorem textLoop_spec : ∀ (fuel : Nat) (pre rest : List UInt8) (data : List (List UInt8)), rest.length < fuel →
    ∃ res pre' rest', textLoop fuel data (cur pre rest) = (res, cur pre' rest') ∧ res ≠ .panic ∧ pre' ++ rest' = pre ++ rest ∧
      ∀ ds, res = .ok ds → ∃ ss : List CharStr, ss ≠ [] ∧ (∀ s ∈ ss, s.OK) ∧ ds = data ++ ss.map CharStr.octets ∧
        rest = ss.flatMap CharStr.text ∧ rest' = [] := by
  intro fuel
  induction fuel with
  | zero => intro _ _ _ h; omega
  | succ fuel ih =>
    intro pre rest data hf
    rw [textLoop]
    obtain ⟨res, pre', rest', h1, h2, h3, h4⟩ := read_char_string_spec pre rest
    cases res with
    | panic => exact absurd rfl h2
    | err => rw [St.bind_err h1]; exact ⟨.err, pre', rest', rfl, by simp, h3, by simp⟩
    | ok d =>
      obtain ⟨s, s1, s2, s3, s4⟩ := h4 d rfl
      rw [St.bind_ok h1, St.get_bind, is_eos_cur]
      by_cases he : rest' = []
      · rw [if_pos (by simp [he])]
        refine ⟨.ok (data ++ [d]), pre', rest', rfl, by simp, h3, ?_⟩
        intro ds hds
        cases hds
        exact ⟨[s], by simp, by simpa using s1, by simp [s2], by rw [s4, he]; simp, he⟩
      · rw [if_neg (by simp [he])]
        have hlen : rest'.length < fuel := by
          have := congrArg List.length s4
          simp [CharStr.text] at this
          omega
        obtain ⟨res, pre2, rest2, g1, g2, g3, g4⟩ := ih pre' rest' (data ++ [d]) hlen
        refine ⟨res, pre2, rest2, g1, g2, by rw [g3, h3], ?_⟩
        intro ds hds
        obtain ⟨ss, k1, k2, k3, k4, k5⟩ := g4 ds hds
        refine ⟨s :: ss, by simp, ?_, by rw [k3]; simp [s2], by rw [s4, k4]; rfl, k5⟩
        intro x hx
        rcases List.mem_cons.1 hx with h | h
        · exact h ▸ s1
        · exact k2 x h

theorem read_text_ok {ss : List CharStr} {pre : List UInt8} (hne : ss ≠ []) (h : ∀ s ∈ ss, s.OK) :
    read_text (cur pre (ss.flatMap CharStr.text)) = (.ok (ss.map CharStr.octets), cur (pre ++ ss.flatMap CharStr.text) []) := by
  unfold read_text
  rw [St.get_bind]
  have hlen : ss.length ≤ (ss.flatMap CharStr.text).length := by
    clear hne h
    induction ss with
    | nil => simp
    | cons s ss ih => simp [CharStr.text] at ih ⊢; omega
  rw [St.bind_ok (textLoop_ok ss _ pre [] hne (by simp [cur] at hlen ⊢; omega) h)]
  rw [St.lift_ok_bind (a := ())]
  · rfl
  · simp [ensure, hne]

theorem read_text_spec (pre rest : List UInt8) :
    ∃ res pre' rest', read_text (cur pre rest) = (res, cur pre' rest') ∧ res ≠ .panic ∧ pre' ++ rest' = pre ++ rest ∧
      ∀ ds, res = .ok ds → ∃ ss : List CharStr, ss ≠ [] ∧ (∀ s ∈ ss, s.OK) ∧ ds = ss.map CharStr.octets ∧
        rest = ss.flatMap CharStr.text ∧ rest' = [] := by
  unfold read_text
  rw [St.get_bind]
  obtain ⟨res, pre', rest', h1, h2, h3, h4⟩ := textLoop_spec ((cur pre rest).raw.length - (cur pre rest).pos + 1) pre rest [] (by simp [cur])
  cases res with
  | panic => exact absurd rfl h2
  | err => rw [St.bind_err h1]; exact ⟨.err, pre', rest', rfl, by simp, h3, by simp⟩
  | ok ds =>
    obtain ⟨ss, k1, k2, k3, k4, k5⟩ := h4 ds rfl
    rw [St.bind_ok h1]
    rw [St.lift_ok_bind (a := ())]
    · refine ⟨.ok ds, pre', rest', rfl, by simp, h3, ?_⟩
      intro ds' e; cases e
      exact ⟨ss, k1, k2, by simpa using k3, k4, k5⟩
    · simp [ensure, k3, k1]

end StrBuf

/-! ## Printing -/

namespace Field

theorem char_to_str_quoted (c : UInt8) {t d : List UInt8} (h : Quoted t d) : Quoted (char_to_str c ++ t) (c :: d) := by
  have key : ∀ c : UInt8,
      (char_to_str c = [c] ∧ c ≠ 34 ∧ c ≠ 92) ∨ (char_to_str c = [92, c] ∧ ¬ (48 ≤ c ∧ c ≤ 57)) ∨
      (char_to_str c = [92, UInt8.ofNat (48 + c.toNat / 100), UInt8.ofNat (48 + c.toNat / 10 % 10), UInt8.ofNat (48 + c.toNat % 10)]) := by
    apply forall_u8'; decide +kernel
  rcases key c with ⟨e, h1, h2⟩ | ⟨e, h1⟩ | e
  · rw [e]; exact .plain h1 h2 h
  · rw [e]; exact .escaped h1 h
  · rw [e]
    have hc := c.toNat_lt
    have := Quoted.number (x := c.toNat / 100) (y := c.toNat / 10 % 10) (z := c.toNat % 10) (by omega) (by omega) (by omega) (by omega) h
    rw [show 100 * (c.toNat / 100) + 10 * (c.toNat / 10 % 10) + c.toNat % 10 = c.toNat by omega] at this
    simpa using this

theorem flatMap_quoted (d : List UInt8) : Quoted (d.flatMap char_to_str) d := by
  induction d with
  | nil => exact .nil
  | cons c d ih => rw [List.flatMap_cons]; exact char_to_str_quoted c ih

/-- the printed form as a character-string -/
def printed (d : List UInt8) : CharStr := ⟨[], d.flatMap char_to_str, d⟩

theorem printed_text (d : List UInt8) : (printed d).text = string_to_str d := by simp [printed, CharStr.text, string_to_str]

theorem printed_ok {d : List UInt8} (h1 : d ≠ []) (h2 : d.length ≤ 255) : (printed d).OK :=
  ⟨by simp [printed], flatMap_quoted d, h1, h2⟩

theorem text_to_str_eq (ds : List (List UInt8)) : text_to_str ds = (ds.map printed).flatMap CharStr.text := by
  induction ds with
  | nil => rfl
  | cons d ds ih => rw [text_to_str, ih, List.map_cons, List.flatMap_cons, printed_text]

/-- printable ASCII -/
theorem string_to_str_ascii (d : List UInt8) : ∀ c ∈ string_to_str d, 32 ≤ c ∧ c < 127 := by
  have key : ∀ c : UInt8, ∀ x ∈ char_to_str c, 32 ≤ x ∧ x < 127 := by
    apply forall_u8'; decide +kernel
  intro c hc
  simp only [string_to_str, List.cons_append, List.mem_cons, List.mem_append, List.mem_flatMap, List.not_mem_nil, or_false] at hc
  rcases hc with h | ⟨x, _, h⟩ | h
  · subst h; decide
  · exact key x c h
  · subst h; decide

end Field
end R53
