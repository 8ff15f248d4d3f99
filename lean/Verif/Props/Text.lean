import Verif.Proofs.Text6
import Verif.Proofs.Utf8
/-!
# C41, C42, C70, C71: text
-/
namespace R53
open StrBuf

/-! ## C41 -/

theorem cur_left (pre rest : List UInt8) : (cur pre rest).left = rest := by simp [cur, StrBuf.left]

theorem charStringThen_iff {s d rest : List UInt8} :
    CharStringThen s d rest ↔ ∃ c : CharStr, c.OK ∧ c.octets = d ∧ s = c.text ++ rest := by
  constructor
  · rintro ⟨blanks, body, h1, h2, h3, h4, h5⟩
    exact ⟨⟨blanks, body, d⟩, ⟨h2, h3, by intro h; simp at h; subst h; simp at h4, h5⟩, rfl, by simp [h1, CharStr.text]⟩
  · rintro ⟨c, ⟨h1, h2, h3, h4⟩, rfl, h5⟩
    refine ⟨c.blanks, c.body, by simp [h5, CharStr.text], h1, h2, ?_, h4⟩
    cases h : c.octets with
    | nil => exact absurd h h3
    | cons a t => simp

/-- a call accepts exactly a quoted character-string of 1 to 255 octets, gives the octets it denotes and leaves the rest -/
theorem c41_read_iff (b : StrBuf) (hb : b.pos ≤ b.raw.length) (d rest : List UInt8) :
    (∃ b', read_char_string b = (.ok d, b') ∧ b'.raw = b.raw ∧ b'.pos ≤ b'.raw.length ∧ b'.left = rest) ↔
      CharStringThen b.left d rest := by
  rw [charStringThen_iff, cur_drop b hb, cur_left]
  constructor
  · rintro ⟨b', h1, h2, h3, h4⟩
    obtain ⟨res, pre', rest', e, -, -, h5⟩ := read_char_string_spec (b.raw.take b.pos) (b.raw.drop b.pos)
    rw [h1] at e
    simp only [Prod.mk.injEq] at e
    obtain ⟨e1, e2⟩ := e
    subst e2
    obtain ⟨s, k1, k2, k3, k4⟩ := h5 d e1.symm
    rw [cur_left] at h4
    exact ⟨s, k1, k2, by rw [k4, h4]⟩
  · rintro ⟨c, h1, h2, h3⟩
    have := read_char_string_ok (pre := b.raw.take b.pos) (r := rest) h1
    rw [h3, this, h2]
    refine ⟨_, rfl, by simp [cur], by simp [cur], cur_left _ _⟩

/-- a call that is given no character-string fails -/
theorem c41_read_err (b : StrBuf) (hb : b.pos ≤ b.raw.length) (h : ∀ d rest, ¬ CharStringThen b.left d rest) :
    (read_char_string b).1 = .err := by
  obtain ⟨res, pre', rest', e, h1, -, h5⟩ := read_char_string_spec (b.raw.take b.pos) (b.raw.drop b.pos)
  rw [← cur_drop b hb] at e
  rw [e]
  cases res with
  | err => rfl
  | panic => exact absurd rfl h1
  | ok d =>
    obtain ⟨s, k1, k2, k3, k4⟩ := h5 d rfl
    exact absurd (charStringThen_iff.2 ⟨s, k1, k2, k4⟩) (h d rest')

theorem charStrings_iff {s : List UInt8} {ds : List (List UInt8)} :
    CharStrings s ds ↔ ∃ cs : List CharStr, cs ≠ [] ∧ (∀ c ∈ cs, c.OK) ∧ ds = cs.map CharStr.octets ∧ s = cs.flatMap CharStr.text := by
  constructor
  · intro h
    induction h with
    | one h =>
      obtain ⟨c, h1, h2, h3⟩ := charStringThen_iff.1 h
      exact ⟨[c], by simp, by simpa using h1, by simp [h2], by simpa using h3⟩
    | more h _ ih =>
      obtain ⟨c, h1, h2, h3⟩ := charStringThen_iff.1 h
      obtain ⟨cs, k1, k2, k3, k4⟩ := ih
      refine ⟨c :: cs, by simp, ?_, by simp [h2, k3], by rw [h3, k4]; simp⟩
      intro x hx
      simp only [List.mem_cons] at hx
      rcases hx with rfl | hx
      · exact h1
      · exact k2 x hx
  · rintro ⟨cs, h1, h2, rfl, rfl⟩
    induction cs with
    | nil => exact absurd rfl h1
    | cons c cs ih =>
      by_cases hn : cs = []
      · subst hn
        exact .one (charStringThen_iff.2 ⟨c, h2 c (by simp), rfl, by simp⟩)
      · exact .more (charStringThen_iff.2 ⟨c, h2 c (by simp), rfl, by simp⟩) (ih hn (fun x hx => h2 x (by simp [hx])))

/-- the same for the list of character-strings of a text record, which takes everything that is left -/
theorem c41_text_iff (b : StrBuf) (hb : b.pos ≤ b.raw.length) (ds : List (List UInt8)) :
    (read_text b).1 = .ok ds ↔ CharStrings b.left ds := by
  rw [charStrings_iff, cur_drop b hb, cur_left]
  constructor
  · intro h
    obtain ⟨res, pre', rest', e, -, -, h5⟩ := read_text_spec (b.raw.take b.pos) (b.raw.drop b.pos)
    rw [e] at h
    obtain ⟨ss, k1, k2, k3, k4, -⟩ := h5 ds h
    exact ⟨ss, k1, k2, k3, k4⟩
  · rintro ⟨cs, h1, h2, h3, h4⟩
    rw [h4, read_text_ok h1 h2, h3]

/-- octets printed and read back, with any blanks before and any text behind. Missing: the empty string, see
`c41_empty_violated` -/
theorem c41_round_partial (d : List UInt8) (h1 : d ≠ []) (h2 : d.length ≤ 255) (blanks tail : List UInt8) (hb : ∀ c ∈ blanks, Blank c) :
    ∃ b, read_char_string ⟨blanks ++ Field.string_to_str d ++ tail, 0⟩ = (.ok d, b) ∧ b.left = tail := by
  have hs : (CharStr.mk blanks (d.flatMap Field.char_to_str) d).OK := ⟨hb, (Field.printed_ok h1 h2).2⟩
  have := read_char_string_ok (pre := []) (r := tail) hs
  have e : cur [] ((CharStr.mk blanks (d.flatMap Field.char_to_str) d).text ++ tail) = ⟨blanks ++ Field.string_to_str d ++ tail, 0⟩ := by
    simp [cur, CharStr.text, Field.string_to_str]
  rw [e] at this
  exact ⟨_, this, cur_left _ tail⟩

/-- a text record printed and read back -/
theorem c41_text_round_partial (ds : List (List UInt8)) (hne : ds ≠ []) (h : ∀ d ∈ ds, d ≠ [] ∧ d.length ≤ 255) :
    (read_text ⟨Field.text_to_str ds, 0⟩).1 = .ok ds := by
  have := read_text_ok (pre := []) (ss := ds.map Field.printed) (by simpa using hne)
    (by intro s hs; obtain ⟨d, hd, rfl⟩ := List.mem_map.1 hs; exact Field.printed_ok (h d hd).1 (h d hd).2)
  rw [Field.text_to_str_eq]
  have e : cur [] ((ds.map Field.printed).flatMap CharStr.text) = ⟨(ds.map Field.printed).flatMap CharStr.text, 0⟩ := by simp [cur]
  rw [← e, this]
  simp [Function.comp_def, Field.printed]

/-- the printed form is printable ASCII -/
theorem c41_printed_ascii (d : List UInt8) : ∀ c ∈ Field.string_to_str d, 32 ≤ c ∧ c < 127 := Field.string_to_str_ascii d

/-- the empty character-string is printed as `""`, which is refused -/
theorem c41_empty_violated : Field.string_to_str [] = [34, 34] ∧ (read_char_string ⟨[34, 34], 0⟩).1 = .err ∧
    (read_text ⟨Field.text_to_str [[]], 0⟩).1 = .err ∧ (read_text ⟨Field.text_to_str [[97], []], 0⟩).1 = .err := by decide +kernel

/-- and a blank after the last character-string of a text record makes it refuse the whole text -/
theorem c41_trailing_blank_violated : (read_text ⟨ascii "\"ab\" \"c\"", 0⟩).1 = .ok [[97, 98], [99]] ∧
    (read_text ⟨ascii "\"ab\" \"c\" ", 0⟩).1 = .err := by decide +kernel

example : Field.string_to_str [97, 34, 0, 200, 32, 92] = ascii "\"a\\\"\\000\\200 \\\\\"" := by decide +kernel
example : CharStringThen (ascii " \"a\\\"\\000\\200 \\\\\" x") [97, 34, 0, 200, 32, 92] (ascii " x") :=
  ⟨[32], ascii "a\\\"\\000\\200 \\\\", by decide +kernel, by decide, Field.flatMap_quoted [97, 34, 0, 200, 32, 92], by decide, by decide⟩

/-! ## C42 -/

/-- `k` calls of `next` -/
def nextCalls : Nat → St StrBuf (List (Option (List UInt8)))
  | 0 => pure []
  | k + 1 => do
    let w ← read_str
    let ws ← nextCalls k
    pure (w :: ws)

theorem words_append {a b : List UInt8} (hb : ∀ c, b.head? = some c → Blank c) : words (a ++ b) = words a ++ words b := by
  have key : ∀ (n : Nat) (a : List UInt8), a.length ≤ n → words (a ++ b) = words a ++ words b := by
    intro n
    induction n with
    | zero => intro a ha; match a, ha with | [], _ => simp [words_nil]
    | succ n ih =>
      intro a ha
      cases a with
      | nil => simp [words_nil]
      | cons c a =>
        by_cases hc : Blank c
        · rw [List.cons_append, words_blank hc, words_blank hc]; exact ih a (by simpa using ha)
        · obtain ⟨w, r, e, hw, hr⟩ := word_ahead (c :: a)
          have hne : w ≠ [] := by
            intro h; subst h
            rw [List.nil_append] at e; subst e
            exact hc (hr c rfl)
          rw [e, List.append_assoc]
          have hr2 : ∀ x, (r ++ b).head? = some x → Blank x := by
            intro x hx
            cases r with
            | nil => exact hb x hx
            | cons y r => exact hr x hx
          rw [words_word hne hw hr2, words_word hne hw hr]
          have hl : r.length ≤ n := by
            have := congrArg List.length e
            simp at this ha
            have : 0 < w.length := by cases w with | nil => exact absurd rfl hne | cons => simp
            omega
          rw [ih r hl]; rfl
  exact key _ a (Nat.le_refl _)

theorem nextCalls_spec : ∀ (k : Nat) (pre rest : List UInt8), isUtf8 rest = true →
    ∃ used left, rest = used ++ left ∧ isUtf8 left = true ∧ words left = (words rest).drop k ∧
      (used = [] ∨ ∀ c, left.head? = some c → Blank c) ∧
      nextCalls k (cur pre rest) = (.ok ((List.range k).map fun i => (words rest)[i]?), cur (pre ++ used) left) := by
  intro k
  induction k with
  | zero => intro pre rest hu; exact ⟨[], rest, rfl, hu, rfl, .inl rfl, by simp [nextCalls]⟩
  | succ k ih =>
    intro pre rest hu
    obtain ⟨mid, rest', h1, h2, h3, h4, h5⟩ := read_str_spec5 (pre := pre) hu
    obtain ⟨used, left, g1, g2, g3, g5, g4⟩ := ih (pre ++ mid) rest' h2
    refine ⟨mid ++ used, left, by rw [h1, g1]; simp, g2, ?_, ?_, ?_⟩
    · rw [g3, h4, List.drop_tail]
    · right
      rcases g5 with rfl | g5
      · rw [List.nil_append] at g1; subst g1; exact h5
      · exact g5
    · rw [nextCalls, St.bind_ok h3, St.bind_ok g4, List.range_succ_eq_map]
      rw [List.append_assoc]
      simp only [List.map_cons, List.map_map]
      have e1 : (words rest).head? = (words rest)[0]? := by cases words rest <;> rfl
      have e2 : List.map (fun i => (words rest')[i]?) (List.range k) = List.map ((fun i => (words rest)[i]?) ∘ Nat.succ) (List.range k) := by
        apply List.map_congr_left
        intro i _
        simp only [h4, Function.comp_apply]
        cases words rest <;> simp
      rw [e1, e2]; rfl

/-- the texts the theorems range over are exactly the UTF-8 encodings of sequences of characters, as the language promises for `&str` -/
theorem c42_every_text (s : List UInt8) : isUtf8 s = true ↔ ∃ cs : List Char, utf8Of cs = s := isUtf8_iff s
example : utf8Of ['a', 'é', '€', '𝄞'] = [97, 0xC3, 0xA9, 0xE2, 0x82, 0xAC, 0xF0, 0x9D, 0x84, 0x9E] := by decide +kernel

/-- the calls of `next` answer the blank separated words in order, and `None` when there are no more; what `read_left` /
`left_str` then answers is exactly the part of the text behind those words, with the remaining words: nothing is lost, repeated or
invented -/
theorem c42_next_and_left (s : List UInt8) (hu : isUtf8 s = true) (k : Nat) :
    ∃ b used left, nextCalls k ⟨s, 0⟩ = (.ok ((List.range k).map fun i => (words s)[i]?), b) ∧ s = used ++ left ∧
      words used = (words s).take k ∧ words left = (words s).drop k ∧
      (read_left b).1 = .ok (if left = [] then none else some left) := by
  obtain ⟨used, left, h1, h2, h3, h5, h4⟩ := nextCalls_spec k [] s hu
  have hu2 : words used = (words s).take k := by
    have e : words s = words used ++ words left := by
      rcases h5 with h5 | h5
      · rw [h1, h5]; simp [words_nil]
      · rw [h1, words_append h5]
    have e2 := List.take_append_drop k (words s)
    rw [← h3] at e2
    rw [e] at e2
    exact (List.append_cancel_right e2).symm.trans (by rw [← e])
  have e : cur [] s = ⟨s, 0⟩ := by simp [cur]
  rw [e] at h4
  exact ⟨_, used, left, h4, h1, hu2, h3, by rw [read_left_spec h2]⟩

example : ∃ b, nextCalls 4 ⟨ascii " a.b  300\tIN ", 0⟩ = (.ok [some (ascii "a.b"), some (ascii "300"), some (ascii "IN"), none], b) := by
  obtain ⟨b, -, -, h, -⟩ := c42_next_and_left (ascii " a.b  300\tIN ") (by decide +kernel) 4
  exact ⟨b, h.trans (by rw [show ((List.range 4).map fun i => (words (ascii " a.b  300\tIN "))[i]?) =
    [some (ascii "a.b"), some (ascii "300"), some (ascii "IN"), none] by decide +kernel])⟩

/-! ## C71 -/

theorem call_safe (A : Prop) (op : TextOp) : TextSafe A op.call := by
  cases op with
  | next => exact TextSafe.bind TextSafe.read_str (fun _ => TextSafe.pure _)
  | left => exact TextSafe.bind TextSafe.read_left (fun _ => TextSafe.pure _)
  | charString => exact TextSafe.bind TextSafe.read_char_string (fun _ => TextSafe.pure _)
  | text => exact TextSafe.read_text

/-- no history of calls on an ASCII text panics, whatever has failed before -/
theorem c71_calls_ascii_partial (s : List UInt8) (hs : ∀ c ∈ s, c.toNat < 0x80) (ops : List TextOp) :
    .panic ∉ TextOp.run ops ⟨s, 0⟩ := by
  have key : ∀ (ops : List TextOp) (pre rest : List UInt8), (∀ c ∈ pre ++ rest, c.toNat < 0x80) → .panic ∉ TextOp.run ops (cur pre rest) := by
    intro ops
    induction ops with
    | nil => intro pre rest _; simp [TextOp.run]
    | cons op ops ih =>
      intro pre rest h
      have hr : ∀ c ∈ rest, c.toNat < 0x80 := fun c hc => h c (by simp [hc])
      obtain ⟨res, pre', rest', e, h1, h2, -⟩ := call_safe True op pre rest (isUtf8_ascii hr) (fun _ => hr)
      rw [TextOp.run, e]
      simp only [List.mem_cons, not_or]
      exact ⟨Ne.symm h1, ih pre' rest' (by rw [h2]; exact h)⟩
  have := key ops [] s (by simpa using hs)
  simpa [cur] using this

/-- on any text, a call panics only after another call has answered `Err` -/
theorem c71_calls_partial (s : List UInt8) (hs : isUtf8 s = true) (ops : List TextOp) (op : TextOp)
    (h : .err ∉ TextOp.run ops ⟨s, 0⟩) : .panic ∉ TextOp.run (ops ++ [op]) ⟨s, 0⟩ := by
  have key : ∀ (ops : List TextOp) (pre rest : List UInt8), isUtf8 rest = true → .err ∉ TextOp.run ops (cur pre rest) →
      .panic ∉ TextOp.run (ops ++ [op]) (cur pre rest) := by
    intro ops
    induction ops with
    | nil =>
      intro pre rest h _
      obtain ⟨res, pre', rest', e, h1, -, -⟩ := call_safe False op pre rest h (fun h => h.elim)
      simp only [List.nil_append, TextOp.run, e, List.mem_singleton]
      exact Ne.symm h1
    | cons o ops ih =>
      intro pre rest h he
      obtain ⟨res, pre', rest', e, h1, h2, h3⟩ := call_safe False o pre rest h (fun h => h.elim)
      rw [TextOp.run, e] at he
      simp only [List.mem_cons, not_or] at he
      rw [List.cons_append, TextOp.run, e]
      simp only [List.mem_cons, not_or]
      refine ⟨Ne.symm h1, ?_⟩
      cases res with
      | panic => exact absurd rfl h1
      | err => exact absurd rfl he.1
      | ok v => exact ih pre' rest' (h3 v rfl).1 he.2
  have := key ops [] s hs (by simpa [cur] using h)
  simpa [cur] using this

/-- 255 letters and `é` in quotes: the character-string is too long after the first octet of `é`, the call fails there, and the
next call panics on the text that does not start at a character -/
theorem c71_calls_violated : isUtf8 ([34] ++ List.replicate 255 97 ++ [0xC3, 0xA9, 34]) = true ∧
    TextOp.run [.charString, .next] ⟨[34] ++ List.replicate 255 97 ++ [0xC3, 0xA9, 34], 0⟩ = [.err, .panic] ∧
    TextOp.run [.charString, .left] ⟨[34] ++ List.replicate 255 97 ++ [0xC3, 0xA9, 34], 0⟩ = [.err, .panic] := by decide +kernel

theorem new_release (s : List UInt8) : StrBuf.new .release s = .ok (cur [] s) := by simp [StrBuf.new, cur]
theorem new_debug {s : List UInt8} (h : s ≠ []) : StrBuf.new .debug s = .ok (cur [] s) := by
  unfold StrBuf.new
  simp [assertR, h, cur]
theorem new_safe {m : Build} {s : List UInt8} (h : m = .release ∨ s ≠ []) : StrBuf.new m s = .ok (cur [] s) := by
  cases m with
  | release => exact new_release s
  | debug => exact new_debug (h.resolve_left (by simp))

/-- reading a record from ASCII text answers a record or an error. Missing: debug builds on texts of blanks only, texts outside
ASCII; see the `_violated` theorems -/
theorem c71_rrset_ascii_partial (x : Ext) (m : Build) (s : List UInt8) (hs : ∀ c ∈ s, c.toNat < 0x80) (hm : m = .release ∨ trim s ≠ []) :
    RRset.from_str x m s ≠ .panic := by
  unfold RRset.from_str
  rw [new_safe hm, Res.bind_ok]
  obtain ⟨res, pre', rest', e, h1, -, -⟩ := TextSafe.parse x [] (trim s) (isUtf8_ascii (trim_all hs)) (fun _ => trim_all hs)
  rw [e]; exact h1

/-- the same for any text in which no word is the type RRSIG -/
theorem c71_rrset_unicode_partial (x : Ext) (m : Build) (s : List UInt8) (hs : isUtf8 s = true)
    (hw : ∀ w ∈ words (trim s), RRType.from_str w ≠ .ok .RRSIG) (hm : m = .release ∨ trim s ≠ []) :
    RRset.from_str x m s ≠ .panic := by
  unfold RRset.from_str
  rw [new_safe hm, Res.bind_ok]
  exact WordSafe.parse x [] (trim s) (trim_utf8 hs) hw

/-- reading record data -/
theorem c71_rdata_partial (x : Ext) (m : Build) (t : RRType) (s : List UInt8) (hs : isUtf8 s = true)
    (ht : t = .RRSIG → ∀ c ∈ s, c.toNat < 0x80) (hm : m = .release ∨ s ≠ []) : RData.from_str x m t s ≠ .panic := by
  unfold RData.from_str
  rw [new_safe hm, Res.bind_ok]
  by_cases h : t = .RRSIG
  · obtain ⟨res, pre', rest', e, h1, -, -⟩ := TextSafe.rdata (A := True) x t (fun _ => trivial) [] s hs (fun _ => ht h)
    rw [e]; exact h1
  · obtain ⟨res, pre', rest', e, h1, -, -⟩ := TextSafe.rdata (A := False) x t (fun h' => absurd h' h) [] s hs (fun h => h.elim)
    rw [e]; exact h1

theorem from_str_one {x : Ext} {m : Build} {s : List UInt8} {c : RRset} (hc : RRset.from_str x m s = .ok c) : ∃ rd, c.rdatas = [rd] := by
  unfold RRset.from_str at hc
  obtain ⟨b, hb, hc⟩ := Res.bind_eq_ok.1 hc
  have : ∃ b', RRset.parse x b = (.ok c, b') := ⟨_, Prod.ext hc rfl⟩
  obtain ⟨b', hp⟩ := this
  unfold RRset.parse at hp
  obtain ⟨_, _, -, hp⟩ := St.bind_ok_inv hp
  obtain ⟨_, _, -, hp⟩ := St.bind_ok_inv hp
  obtain ⟨_, _, -, hp⟩ := St.bind_ok_inv hp
  obtain ⟨_, _, -, hp⟩ := St.bind_ok_inv hp
  obtain ⟨_, _, -, hp⟩ := St.bind_ok_inv hp
  obtain ⟨_, _, -, hp⟩ := St.bind_ok_inv hp
  cases hp
  exact ⟨_, rfl⟩

theorem strsFold_safe {x : Ext} {m : Build} : ∀ (ss : List (List UInt8)) (r : RRset), (∀ s ∈ ss, RRset.from_str x m s ≠ .panic) →
    RRset.strsFold x m r ss ≠ .panic := by
  intro ss
  induction ss with
  | nil => intro r _; simp [RRset.strsFold]
  | cons s ss ih =>
    intro r h
    rw [RRset.strsFold]
    refine Res.bind_safe (h s (by simp)) (fun c hc => ?_)
    split
    · simp
    · split
      · rename_i hd
        obtain ⟨rd, e⟩ := from_str_one hc
        rw [e] at hd; cases hd
      · exact ih _ (fun s hs => h s (by simp [hs]))

/-- several lines -/
theorem c71_rrset_lines_partial (x : Ext) (m : Build) (ss : List (List UInt8)) (hne : ss ≠ [])
    (h : ∀ s ∈ ss, (∀ c ∈ s, c.toNat < 0x80) ∧ (m = .release ∨ trim s ≠ [])) : RRset.from_strs x m ss ≠ .panic := by
  have hf : ∀ s ∈ ss, RRset.from_str x m s ≠ .panic := fun s hs => c71_rrset_ascii_partial x m s (h s hs).1 (h s hs).2
  unfold RRset.from_strs
  match ss, hne with
  | s :: ss, _ =>
    simp only [assertR, ne_eq, reduceCtorEq, not_false_eq_true, if_true, Res.bind_ok, show idx (s :: ss) 0 = .ok s from rfl]
    refine Res.bind_safe (hf s (by simp)) (fun c _ => ?_)
    split
    · simp
    · split
      · simp
      · exact strsFold_safe ss c (fun s hs => hf s (by simp [hs]))


/-- an RRSIG record with the time stamp `202é101000000`, which is fourteen octets -/
def badStamp : List UInt8 := ascii "a. 300 IN RRSIG A 8 2 300 202" ++ [0xC3, 0xA9] ++ ascii "101000000 20200101000000 1 b. AAAA"

theorem badStamp_data (x : Ext) : (RData.from_string_buffer x .RRSIG ⟨badStamp, 15⟩).1 = .panic := by
  unfold RData.from_string_buffer
  simp only [schema]
  have h1 : Field.from_str x .rrtype ⟨badStamp, 15⟩ = (.ok (.rrtype .A), ⟨badStamp, 17⟩) := by
    rw [show Field.from_str x .rrtype = Field.from_str ⟨id, some, id, some, id, some⟩ .rrtype from rfl]; decide +kernel
  have h2 : Field.from_str x .u8 ⟨badStamp, 17⟩ = (.ok (.u8 8), ⟨badStamp, 19⟩) := by
    rw [show Field.from_str x .u8 = Field.from_str ⟨id, some, id, some, id, some⟩ .u8 from rfl]; decide +kernel
  have h3 : Field.from_str x .u8 ⟨badStamp, 19⟩ = (.ok (.u8 2), ⟨badStamp, 21⟩) := by
    rw [show Field.from_str x .u8 = Field.from_str ⟨id, some, id, some, id, some⟩ .u8 from rfl]; decide +kernel
  have h4 : Field.from_str x .u32 ⟨badStamp, 21⟩ = (.ok (.u32 300), ⟨badStamp, 25⟩) := by
    rw [show Field.from_str x .u32 = Field.from_str ⟨id, some, id, some, id, some⟩ .u32 from rfl]; decide +kernel
  have h5 : Field.from_str x .timestamp ⟨badStamp, 25⟩ = (.panic, ⟨badStamp, 40⟩) := by
    rw [show Field.from_str x .timestamp = Field.from_str ⟨id, some, id, some, id, some⟩ .timestamp from rfl]; decide +kernel
  have : ∃ b, Field.allFromStr x [(.rrtype, .rrtype), (.u8, .u8), (.u8, .u8), (.u32, .u32), (.u32, .timestamp), (.u32, .timestamp),
      (.u16, .u16), (.name, .name), (.binary, .base64)] ⟨badStamp, 15⟩ = (.panic, b) := by
    rw [Field.allFromStr, St.bind_ok h1, St.bind_panic (s' := ⟨badStamp, 40⟩)]
    · exact ⟨_, rfl⟩
    rw [Field.allFromStr, St.bind_ok h2, St.bind_panic (s' := ⟨badStamp, 40⟩)]
    rw [Field.allFromStr, St.bind_ok h3, St.bind_panic (s' := ⟨badStamp, 40⟩)]
    rw [Field.allFromStr, St.bind_ok h4, St.bind_panic (s' := ⟨badStamp, 40⟩)]
    rw [Field.allFromStr, St.bind_panic h5]
  obtain ⟨b, e⟩ := this
  rw [St.bind_panic e]

theorem parse_panics {x : Ext} {b0 b1 b2 b3 : StrBuf} {w1 w2 : List UInt8} {n : Name} {v : Nat} {c : RRClass} {t : RRType}
    (h1 : RRset.nextWord b0 = (.ok w1, b1)) (h2 : Name.new w1 = .ok n) (h3 : RRset.nextWord b1 = (.ok w2, b2))
    (h4 : parseNum 4294967295 w2 = .ok v) (h5 : RRset.classType b2 = (.ok (c, t), b3))
    (h6 : (RData.from_string_buffer x t b3).1 = .panic) : (RRset.parse x b0).1 = .panic := by
  have h7 : RData.from_string_buffer x t b3 = (.panic, (RData.from_string_buffer x t b3).2) := Prod.ext h6 rfl
  unfold RRset.parse
  rw [St.bind_ok h1, St.lift_ok_bind h2, St.bind_ok h3, St.lift_ok_bind h4, St.bind_ok h5, St.bind_panic h7]

/-- the time stamp of an RRSIG is cut at fixed octets, which panics inside a character -/
theorem c71_timestamp_violated (x : Ext) (m : Build) : isUtf8 badStamp = true ∧ RRset.from_str x m badStamp = .panic := by
  refine ⟨by decide +kernel, ?_⟩
  have h0 : trim badStamp = badStamp := by decide +kernel
  have h1 : RRset.nextWord ⟨badStamp, 0⟩ = (.ok (ascii "a."), ⟨badStamp, 2⟩) := by decide +kernel
  have h2 : Name.new (ascii "a.") = .ok (Name.ofLabels [[97]]) := by decide +kernel
  have h3 : RRset.nextWord ⟨badStamp, 2⟩ = (.ok (ascii "300"), ⟨badStamp, 6⟩) := by decide +kernel
  have h4 : parseNum 4294967295 (ascii "300") = .ok 300 := by decide +kernel
  have h5 : RRset.classType ⟨badStamp, 6⟩ = (.ok (.IN, .RRSIG), ⟨badStamp, 15⟩) := by decide +kernel
  have h8 : badStamp ≠ [] := by decide +kernel
  have h9 : cur [] badStamp = ⟨badStamp, 0⟩ := rfl
  have h6 := badStamp_data x
  generalize badStamp = s at *
  unfold RRset.from_str
  rw [h0, new_safe (.inr h8), Res.bind_ok, h9]
  exact parse_panics h1 h2 h3 h4 h5 h6

/-- a text of blanks only panics in a debug build -/
theorem c71_blank_violated (x : Ext) (t : RRType) : RRset.from_str x .debug [32, 10] = .panic ∧ RRset.from_str x .debug [] = .panic ∧
    RData.from_str x .debug t [] = .panic := by
  refine ⟨?_, ?_, ?_⟩
  · unfold RRset.from_str; rw [show StrBuf.new .debug (trim [32, 10]) = .panic by decide +kernel, Res.bind_panic]
  · unfold RRset.from_str; rw [show StrBuf.new .debug (trim []) = .panic by decide +kernel, Res.bind_panic]
  · unfold RData.from_str; rw [show StrBuf.new .debug [] = .panic by decide +kernel, Res.bind_panic]

/-- non-ASCII text that meets the hypotheses -/
example (x : Ext) : RRset.from_str x .debug (ascii "a. 300 IN TXT \"" ++ [0xC3, 0xA9] ++ ascii "\"\n") ≠ .panic :=
  c71_rrset_unicode_partial x .debug _ (by decide +kernel) (by decide +kernel) (.inr (by decide +kernel))

/-! ## C70 -/

/-- an instance of the address and base64 texts that satisfies the laws: everything in hexadecimal -/
def showHex (d : List UInt8) : List UInt8 := match Hex.to_hex d with | .ok s => s | _ => []
def hexExt : Ext := ⟨showHex, Hex.from_hex, showHex, Hex.from_hex, showHex, Hex.from_hex⟩

theorem hexExt_laws : hexExt.Laws := by
  have key : ∀ d : List UInt8, d ≠ [] → Word (showHex d) ∧ Hex.from_hex (showHex d) = some d := by
    intro d hd
    obtain ⟨s, h1, -, -⟩ := Hex.c23_to_hex d
    have e : showHex d = s := by unfold showHex; rw [h1]
    rw [e]
    exact ⟨hex_word hd h1, Hex.c23_round_trip d s h1⟩
  have ne : ∀ (d : List UInt8) (n : Nat), d.length = n + 1 → d ≠ [] := by intro d n h h'; subst h'; simp at h
  exact ⟨fun o h => key o (ne o 3 h), fun o h => key o (ne o 15 h), fun d h => key d h⟩

theorem neat_blank {t : List UInt8} (h : Neat t) : (∀ c, t.head? = some c → 33 ≤ c ∧ c < 127) ∧ (∀ c, t.getLast? = some c → 33 ≤ c ∧ c < 127) := by
  have key : ∀ c : UInt8, (32 ≤ c ∧ c < 127) → c ≠ 32 → 33 ≤ c ∧ c < 127 := by apply forall_u8'; decide +kernel
  exact ⟨fun c hc => key c (h.ascii c (List.mem_of_head? hc)) (h.head c hc), fun c hc => key c (h.ascii c (List.mem_of_getLast? hc)) (h.last c hc)⟩

theorem trim_word_neat {a m d u w : List UInt8} (ha : Word a) (hd : Neat d) (hu : ∀ c ∈ u, Blank c) (hw : ∀ c ∈ w, Blank c) :
    trim (u ++ ((a ++ (m ++ d)) ++ w)) = a ++ (m ++ d) := by
  refine trim_ends ?_ ?_ ?_ hu hw
  · simp [ha.1]
  · intro c hc
    cases a with
    | nil => exact absurd rfl ha.1
    | cons x a => simp at hc; subst hc; exact ha.2 _ (by simp)
  · intro c hc
    apply (neat_blank hd).2
    rw [← List.append_assoc, List.getLast?_append] at hc
    cases h : d.getLast? with
    | none => rw [List.getLast?_eq_none_iff] at h; exact absurd h hd.ne
    | some y => rw [h] at hc; simpa using hc

theorem decimal_u32 (v : UInt32) : parseNum 4294967295 (decimal v.toNat) = .ok v.toNat :=
  parseNum_decimal _ (by have := v.toNat_lt; omega)

theorem type_not_class {t : RRType} {s : List UInt8} (hn : t.Named) (hc : t ≠ .CERT) (ha : t ≠ .ANY) (hs : s.map lowerByte = t.to_str.map lowerByte) :
    RRClass.from_str s = .err := by
  rw [class_from_str_congr (by cases t <;> first | decide +kernel | exact absurd rfl (hn _)) hs]
  cases t <;> first | decide +kernel | exact absurd rfl (hn _) | exact absurd rfl hc | exact absurd rfl ha

theorem word_of_lower {s t : List UInt8} (ht : Word t) (h : s.map lowerByte = t.map lowerByte) : Word s := by
  have key : ∀ c : UInt8, (33 ≤ lowerByte c ∧ lowerByte c < 127) ↔ (33 ≤ c ∧ c < 127) := by apply forall_u8'; decide +kernel
  refine ⟨?_, ?_⟩
  · intro e; subst e
    have := congrArg List.length h
    simp at this
    exact ht.1 (List.length_eq_zero_iff.1 this.symm)
  · intro c hc
    have : lowerByte c ∈ t.map lowerByte := by rw [← h]; exact List.mem_map_of_mem hc
    obtain ⟨d, hd, e⟩ := List.mem_map.mp this
    rw [← key, ← e, key]; exact ht.2 d hd

theorem named_of_data {rd : RData} (h : rd.Printable) : rd.kind.Named := by
  obtain ⟨cs, h1, -⟩ := h
  intro v hv
  rw [hv] at h1
  simp [schema] at h1

/-- a record reads back from its owner name, TTL, class, type and data, with any blanks between and around them, and class and type
in any letter case; without a class it is class IN -/
theorem c70_layout (x : Ext) (hx : x.Laws) (m : Build) (n : Name) (hn : PlainName n) (ttl : UInt32) (c : RRClass) (hc : c.Named)
    (rd : RData) (hk : rd.kind ≠ .CERT) (hrd : rd.Printable) :
    ∃ nt dt, n.to_string = .ok nt ∧ rd.to_str x = .ok dt ∧
      ∀ u g1 g2 g3 g4 w ct tt : List UInt8, (∀ b ∈ u, Blank b) → (∀ b ∈ w, Blank b) → Gap g1 → Gap g2 → Gap g3 → Gap g4 →
        ct.map lowerByte = c.to_str.map lowerByte → tt.map lowerByte = rd.kind.to_str.map lowerByte →
        RRset.from_str x m (u ++ nt ++ g1 ++ decimal ttl.toNat ++ g2 ++ ct ++ g3 ++ tt ++ g4 ++ dt ++ w) = .ok ⟨n, rd.kind, c, ttl, [rd]⟩ ∧
        RRset.from_str x m (u ++ nt ++ g1 ++ decimal ttl.toNat ++ g2 ++ tt ++ g4 ++ dt ++ w) = .ok ⟨n, rd.kind, .IN, ttl, [rd]⟩ := by
  obtain ⟨nt, n1, n2, n3⟩ := plainName_round hn
  obtain ⟨dt, d1, d2, -⟩ := RData.round hx hrd
  refine ⟨nt, dt, n1, d1, ?_⟩
  intro u g1 g2 g3 g4 w ct tt hu hw hg1 hg2 hg3 hg4 hct htt
  have hnm := named_of_data hrd
  have wc : Word ct := word_of_lower (class_word c) hct
  have wt : Word tt := word_of_lower (type_word rd.kind) htt
  have fc := c31_class c hc ct hct
  have ft := c31_type_partial rd.kind hnm hk tt htt
  constructor
  · obtain ⟨b, e⟩ := RRset.parse_words hx n2 n3 (decimal_word _) (decimal_u32 ttl) wc fc wt ft hrd d1 hg1 hg2 hg3 hg4
    have ht := trim_word_neat (m := g1 ++ (decimal ttl.toNat ++ (g2 ++ (ct ++ (g3 ++ (tt ++ g4)))))) n2 d2 hu hw
    simp only [List.append_assoc] at ht e ⊢
    unfold RRset.from_str
    rw [ht, new_safe (.inr (by simp [n2.1])), Res.bind_ok, e]
  · obtain ⟨b, e⟩ := RRset.parse_words_short hx n2 n3 (decimal_word _) (decimal_u32 ttl) wt (type_not_class hnm hk (fun h => by obtain ⟨cs, e, -⟩ := hrd; rw [h] at e; simp [schema] at e) htt) ft hrd d1 hg1 hg2 hg4
    have ht := trim_word_neat (m := g1 ++ (decimal ttl.toNat ++ (g2 ++ (tt ++ g4)))) n2 d2 hu hw
    simp only [List.append_assoc] at ht e ⊢
    unfold RRset.from_str
    rw [ht, new_safe (.inr (by simp [n2.1])), Res.bind_ok, e]

/-- record data reads back from its text, with any blanks before it -/
theorem c70_rdata_partial (x : Ext) (hx : x.Laws) (m : Build) (rd : RData) (h : rd.Printable) :
    ∃ t, rd.to_str x = .ok t ∧ ∀ u, (∀ b ∈ u, Blank b) → RData.from_str x m rd.kind (u ++ t) = .ok rd := by
  obtain ⟨dt, d1, d2, d3⟩ := RData.round hx h
  refine ⟨dt, d1, fun u hu => ?_⟩
  unfold RData.from_str
  rw [new_safe (.inr (by simp [d2.ne])), Res.bind_ok]
  have := d3 [] u hu
  rw [this]

theorem header_eq {r : RRset} {nt : List UInt8} (h : r.name.to_string = .ok nt) :
    r.header = .ok (nt ++ [9] ++ decimal r.ttl.toNat ++ [9] ++ r.class_.to_str ++ [9] ++ r.typ.to_str) := by
  unfold RRset.header; rw [h, Res.bind_ok]; rfl

theorem linesOf_eq {x : Ext} {r : RRset} {h : List UInt8} (hh : r.header = .ok h) : ∀ (rds : List RData) (f : RData → List UInt8),
    (∀ rd ∈ rds, rd.to_str x = .ok (f rd)) → r.linesOf x rds = .ok (rds.flatMap fun rd => h ++ [9] ++ f rd ++ [10]) := by
  intro rds f
  induction rds with
  | nil => intro _; rfl
  | cons rd rds ih =>
    intro hf
    rw [RRset.linesOf, RRset.line, hh, Res.bind_ok, hf rd (by simp), Res.bind_ok, Res.pure_eq, Res.bind_ok,
      ih (fun rd h => hf rd (by simp [h])), Res.bind_ok]
    simp

/-- a record set prints one line for each record; each line, with or without its line feed, reads back as that record, and all of
them together as the set. Missing: CERT, classes without a name, names with octets that do not print as themselves, empty
character-strings and octet strings; see the `_violated` theorems -/
theorem c70_round_partial (x : Ext) (hx : x.Laws) (m : Build) (r : RRset) (h : r.Printable) :
    ∃ lines : List (List UInt8), r.to_string x = .ok (lines.flatMap (· ++ [10])) ∧ (∀ l ∈ lines, 10 ∉ l) ∧
      lines.length = r.rdatas.length ∧
      (∀ (i : Nat) l rd, lines[i]? = some l → r.rdatas[i]? = some rd →
        RRset.from_str x m l = .ok { r with rdatas := [rd] } ∧ RRset.from_str x m (l ++ [10]) = .ok { r with rdatas := [rd] }) ∧
      (r.rdatas.length = 1 ∨ r.typ ≠ .OPT → RRset.from_strs x m lines = .ok r) := by
  obtain ⟨h1, h2, h3, h4, h5⟩ := h
  obtain ⟨nt, n1, n2, n3⟩ := plainName_round h1
  -- the text of each data
  have hf : ∀ rd : RData, ∃ t, rd ∈ r.rdatas → rd.to_str x = .ok t ∧ Neat t := by
    intro rd
    by_cases hm : rd ∈ r.rdatas
    · obtain ⟨dt, d1, d2, -⟩ := RData.round hx (h5 rd hm).2
      exact ⟨dt, fun _ => ⟨d1, d2⟩⟩
    · exact ⟨[], fun h => absurd h hm⟩
  obtain ⟨f, hf⟩ := Classical.axiomOfChoice hf
  have hh := header_eq (r := r) n1
  generalize hH : nt ++ [9] ++ decimal r.ttl.toNat ++ [9] ++ r.class_.to_str ++ [9] ++ r.typ.to_str = H at hh
  have hl := linesOf_eq (x := x) hh r.rdatas f (fun rd hm => (hf rd hm).1)
  have hread : ∀ rd ∈ r.rdatas, RRset.from_str x m (H ++ [9] ++ f rd) = .ok { r with rdatas := [rd] } ∧
      RRset.from_str x m (H ++ [9] ++ f rd ++ [10]) = .ok { r with rdatas := [rd] } := by
    intro rd hm
    obtain ⟨k1, k2⟩ := h5 rd hm
    obtain ⟨nt', dt, a1, a2, a3⟩ := c70_layout x hx m r.name h1 r.ttl r.class_ h2 rd (by rw [k1]; exact h3) k2
    rw [n1] at a1; cases a1
    rw [(hf rd hm).1] at a2; cases a2
    have g : Gap [9] := ⟨by simp, by decide⟩
    have b1 := (a3 [] [9] [9] [9] [9] [] r.class_.to_str rd.kind.to_str (by simp) (by simp) g g g g rfl rfl).1
    have b2 := (a3 [] [9] [9] [9] [9] [10] r.class_.to_str rd.kind.to_str (by simp) (by decide) g g g g rfl rfl).1
    rw [k1] at b1 b2
    subst hH
    simp only [List.append_assoc, List.nil_append, List.append_nil] at b1 b2 ⊢
    exact ⟨b1, b2⟩
  refine ⟨r.rdatas.map fun rd => H ++ [9] ++ f rd, ?_, ?_, by simp, ?_, ?_⟩
  · unfold RRset.to_string
    rw [hl, List.flatMap_map]
  · intro l hl
    obtain ⟨rd, hm, rfl⟩ := List.mem_map.1 hl
    have nw : ∀ {t : List UInt8}, Word t → 10 ∉ t := fun hw hx => absurd (hw.2 10 hx) (by decide)
    have nn : 10 ∉ f rd := fun hx => absurd ((hf rd hm).2.ascii 10 hx) (by decide)
    subst hH
    simp only [List.mem_append, List.mem_singleton, not_or]
    exact ⟨⟨⟨⟨⟨⟨⟨⟨nw n2, by decide⟩, nw (decimal_word _)⟩, by decide⟩, nw (class_word _)⟩, by decide⟩, nw (type_word _)⟩, by decide⟩, nn⟩
  · intro i l rd hl hr
    rw [List.getElem?_map, hr] at hl
    cases hl
    exact hread rd (List.mem_of_getElem? hr)
  · intro hopt
    cases hrs : r.rdatas with
    | nil => exact absurd hrs h4
    | cons rd rds =>
      rw [hrs] at hread hopt
      have fold : ∀ (rds : List RData) (done : List RData), (∀ rd ∈ rds, RRset.from_str x m (H ++ [9] ++ f rd) = .ok { r with rdatas := [rd] }) →
          RRset.strsFold x m { r with rdatas := done } (rds.map fun rd => H ++ [9] ++ f rd) = .ok { r with rdatas := done ++ rds } := by
        intro rds
        induction rds with
        | nil => intro done _; simp [RRset.strsFold]
        | cons rd rds ih =>
          intro done hr
          rw [List.map_cons, RRset.strsFold, hr rd (by simp), Res.bind_ok, if_neg (by simp)]
          refine (ih (done ++ [rd]) (fun rd h => hr rd (by simp [h]))).trans ?_
          simp
      unfold RRset.from_strs
      rw [List.map_cons]
      rw [show assertR ((H ++ [9] ++ f rd) :: rds.map (fun rd => H ++ [9] ++ f rd) ≠ []) = .ok () by simp [assertR], Res.bind_ok]
      rw [show idx ((H ++ [9] ++ f rd) :: rds.map (fun rd => H ++ [9] ++ f rd)) 0 = .ok (H ++ [9] ++ f rd) from rfl, Res.bind_ok]
      rw [(hread rd (by simp)).1, Res.bind_ok]
      have hr : r = { r with rdatas := rd :: rds } := by rw [← hrs]
      by_cases hlen : rds = []
      · subst hlen
        rw [if_pos (by simp)]
        rw [hr]; rfl
      · rw [if_neg (by simp [hlen]), if_neg (by
          rcases hopt with h | h
          · exfalso; simp at h; exact hlen h
          · exact h)]
        have := fold rds [rd] (fun rd h => (hread rd (by simp [h])).1)
        rw [List.drop_succ_cons, List.drop_zero, this, List.singleton_append]
        rw [← hr]

/-- exactly which lines are accepted together, and what set they give: the owner, class and TTL of the first line, and the data of all
in order. The lines need only agree in type (`c70_merge_violated`) -/
theorem c70_lines (x : Ext) (m : Build) (ss : List (List UInt8)) (r : RRset) :
    RRset.from_strs x m ss = .ok r ↔
      ∃ q qs, ss.map (RRset.from_str x m) = (q :: qs).map Res.ok ∧ OneSet q qs ∧
        r = { q with rdatas := q.rdatas ++ qs.flatMap RRset.rdatas } := by
  have fold : ∀ (ss : List (List UInt8)) (q : RRset), RRset.strsFold x m q ss = .ok r ↔
      ∃ qs : List RRset, ss.map (RRset.from_str x m) = qs.map Res.ok ∧ (∀ p ∈ qs, p.typ = q.typ) ∧
        r = { q with rdatas := q.rdatas ++ qs.flatMap RRset.rdatas } := by
    intro ss
    induction ss with
    | nil =>
      intro q
      rw [RRset.strsFold]
      constructor
      · intro h; cases h; exact ⟨[], rfl, by simp, by simp⟩
      · rintro ⟨qs, h1, -, h3⟩
        have : qs = [] := by simpa using h1.symm
        subst this
        simp at h3; rw [h3]
    | cons s ss ih =>
      intro q
      rw [RRset.strsFold]
      constructor
      · intro h
        obtain ⟨c, hc, h⟩ := Res.bind_eq_ok.1 h
        obtain ⟨rd, hrd⟩ := from_str_one hc
        split at h
        · cases h
        · rename_i ht
          rw [hrd] at h
          obtain ⟨qs, k1, k2, k3⟩ := (ih _).1 h
          refine ⟨c :: qs, by simp [hc, k1], ?_, by rw [k3]; simp [hrd]⟩
          intro p hp
          rcases List.mem_cons.1 hp with rfl | hp
          · exact (Decidable.not_not.1 ht).symm
          · exact k2 p hp
      · rintro ⟨qs, h1, h2, h3⟩
        cases qs with
        | nil => simp at h1
        | cons c qs =>
          simp only [List.map_cons, List.cons.injEq] at h1
          obtain ⟨hc, h1⟩ := h1
          obtain ⟨rd, hrd⟩ := from_str_one hc
          rw [hc, Res.bind_ok, if_neg (by simp [h2 c (by simp)]), hrd]
          exact (ih _).2 ⟨qs, h1, fun p hp => h2 p (by simp [hp]), by rw [h3]; simp [hrd]⟩
  unfold RRset.from_strs
  match ss with
  | [] =>
    constructor
    · intro h; simp [assertR] at h
    · rintro ⟨q, qs, h, -⟩; simp at h
  | s :: ss =>
    simp only [assertR, ne_eq, reduceCtorEq, not_false_eq_true, if_true, Res.bind_ok, show idx (s :: ss) 0 = .ok s from rfl]
    constructor
    · intro h
      obtain ⟨q, hq, h⟩ := Res.bind_eq_ok.1 h
      by_cases hl : ss = []
      · subst hl
        rw [if_pos (by simp)] at h
        cases h
        exact ⟨r, [], by simp [hq], ⟨by simp, by simp⟩, by simp⟩
      · rw [if_neg (by simp [hl])] at h
        split at h
        · cases h
        · rename_i ho
          obtain ⟨qs, k1, k2, k3⟩ := (fold _ _).1 h
          exact ⟨q, qs, by simpa [hq] using k1, ⟨k2, fun _ => ho⟩, k3⟩
    · rintro ⟨q, qs, h1, ⟨h2, h3⟩, h4⟩
      simp only [List.map_cons, List.cons.injEq] at h1
      rw [h1.1, Res.bind_ok]
      by_cases hl : ss = []
      · subst hl
        rw [if_pos (by simp)]
        have : qs = [] := by simpa using h1.2.symm
        subst this
        simp at h4; rw [h4]; rfl
      · rw [if_neg (by simp [hl])]
        have hq : qs ≠ [] := by intro h; subst h; simp at h1; exact hl h1.2
        rw [if_neg (h3 hq)]
        exact (fold _ _).2 ⟨qs, h1.2, h2, h4⟩

/-! sample sets -/
namespace TextSample
def www : Name := Name.ofLabels [[119, 119, 119], [97]]
theorem www_plain : PlainName www := ⟨_, by decide +kernel, rfl, by decide +kernel⟩
/-- two RRSIG records: every kind of field but addresses and text -/
def sig (t : RRType) : RData := ⟨.RRSIG, [.rrtype t, .u8 8, .u8 2, .u32 300, .u32 1600000000, .u32 4294967295, .u16 7, .name www, .bytes [1, 2, 3]]⟩
def set : RRset := ⟨www, .RRSIG, .IN, 300, [sig .A, sig .AAAA]⟩
theorem set_printable : set.Printable := by
  refine ⟨www_plain, (by intro v h; cases h), by decide, by simp [set], ?_⟩
  intro rd h
  simp only [set, List.mem_cons, List.not_mem_nil, or_false] at h
  have key : ∀ t : RRType, (∀ v, t ≠ .Unknown v) → t ≠ .CERT → (sig t).kind = .RRSIG ∧ (sig t).Printable := by
    intro t h1 h2
    exact ⟨rfl, _, rfl, ⟨h1, h2⟩, trivial, trivial, trivial, trivial, trivial, trivial, www_plain, by simp [FieldVal.Printable], trivial⟩
  rcases h with rfl | rfl
  · exact key _ (by intro v h; cases h) (by decide)
  · exact key _ (by intro v h; cases h) (by decide)
/-- a set of text records, one with blanks and quotes inside -/
def txt : RRset := ⟨www, .TXT, .IN, 300, [⟨.TXT, [.text [[32, 34, 10, 200], [97]]]⟩]⟩
end TextSample

/-- a case with two records, time stamps and base64 -/
theorem c70_round_example : ∃ lines, TextSample.set.to_string hexExt = .ok (List.flatMap (· ++ [10]) lines) ∧ lines.length = 2 ∧
    RRset.from_strs hexExt .debug lines = .ok TextSample.set := by
  obtain ⟨lines, h1, -, h2, -, h3⟩ := c70_round_partial hexExt hexExt_laws .debug _ TextSample.set_printable
  exact ⟨lines, h1, h2, h3 (.inr (by decide))⟩

/-- the text of the first record of that set -/
theorem c70_text_example : (RRset.mk TextSample.www .RRSIG .IN 300 [TextSample.sig .A]).to_string hexExt =
    .ok (ascii "www.a.\t300\tIN\tRRSIG\tA 8 2 300 20200913122640 21060207062815 7 www.a. 010203\n") := by decide +kernel

/-- a CERT record prints as a URI record, which does not read back -/
theorem c70_cert_violated :
    let r : RRset := ⟨TextSample.www, .CERT, .IN, 300, [⟨.CERT, [.u16 1, .u16 2, .u8 3, .bytes [4]]⟩]⟩
    r.to_string hexExt = .ok (ascii "www.a.\t300\tIN\tURI\t1 2 3 04\n") ∧
    RRset.from_str hexExt .release (ascii "www.a.\t300\tIN\tURI\t1 2 3 04\n") = .err := by decide +kernel

/-- an empty character-string, and an empty salt of an NSEC3PARAM, do not read back -/
theorem c70_empty_violated :
    let r : RRset := ⟨TextSample.www, .TXT, .IN, 300, [⟨.TXT, [.text [[]]]⟩]⟩
    let s : RRset := ⟨TextSample.www, .NSEC3PARAM, .IN, 300, [⟨.NSEC3PARAM, [.u8 1, .u8 0, .u16 5, .bytes []]⟩]⟩
    r.to_string hexExt = .ok (ascii "www.a.\t300\tIN\tTXT\t\"\"\n") ∧
    RRset.from_str hexExt .release (ascii "www.a.\t300\tIN\tTXT\t\"\"\n") = .err ∧
    s.to_string hexExt = .ok (ascii "www.a.\t300\tIN\tNSEC3PARAM\t1 0 5 \n") ∧
    RRset.from_str hexExt .release (ascii "www.a.\t300\tIN\tNSEC3PARAM\t1 0 5 \n") = .err := by decide +kernel

/-- a class without a name is printed as the word `Unknown`, which does not read back -/
theorem c70_unknown_violated :
    let r : RRset := ⟨TextSample.www, .NS, .Unknown 7, 300, [⟨.NS, [.name TextSample.www]⟩]⟩
    r.to_string hexExt = .ok (ascii "www.a.\t300\tUnknown\tNS\twww.a.\n") ∧
    RRset.from_str hexExt .release (ascii "www.a.\t300\tUnknown\tNS\twww.a.\n") = .err := by decide +kernel

/-- an owner name with a parenthesis reads back as another name -/
theorem c70_name_violated :
    let r : RRset := ⟨Name.ofLabels [[97, 40]], .NS, .IN, 300, [⟨.NS, [.name TextSample.www]⟩]⟩
    r.to_string hexExt = .ok (ascii "a\\(.\t300\tIN\tNS\twww.a.\n") ∧
    RRset.from_str hexExt .release (ascii "a\\(.\t300\tIN\tNS\twww.a.\n") = .ok { r with name := Name.ofLabels [[97, 40, 40]] } := by
  decide +kernel

/-- lines of different owners, classes and TTLs are merged into a set of the first line's -/
theorem c70_merge_violated :
    RRset.from_strs hexExt .release [ascii "a. 300 IN NS www.a.", ascii "b. 5 CH NS www.a."] =
      .ok ⟨Name.ofLabels [[97]], .NS, .IN, 300, [⟨.NS, [.name TextSample.www]⟩, ⟨.NS, [.name TextSample.www]⟩]⟩ := by decide +kernel

end R53
