import Verif.Model.Word
import Verif.Proofs.LabelSeq
import Verif.Props.NameOps
import Verif.Props.Buffer
/-!
# C96: sizes and positions at the end of `usize`

What the functions that add a number of the caller's to a length do for every `usize`, in both build profiles. Where the sum is a `usize`,
they are the functions of the rest of the model; where it overflows, they panic or worse.
-/
namespace R53

theorem addW_ok {m : Build} {a b : Nat} (h : a + b < USIZE) : addW m a b = .ok (a + b) := by unfold addW; rw [if_pos h]
theorem addW_debug {a b : Nat} (h : USIZE ≤ a + b) : addW .debug a b = .panic := by unfold addW; rw [if_neg (by omega)]
theorem addW_release {a b : Nat} (h : USIZE ≤ a + b) : addW .release a b = .ok (a + b - USIZE) := by unfold addW; rw [if_neg (by omega)]
theorem subW_ok {m : Build} {a b : Nat} (h : b ≤ a) : subW m a b = .ok (a - b) := by unfold subW; rw [if_pos h]

/-! ## Buffers -/

/-- `read_bytes(n)` at `pos`: as in C20 if `pos + n` is a `usize`, a panic otherwise -/
theorem c96_read_bytes (m : Build) (n : Nat) (hn : n < USIZE) (b : InBuf) : InBuf.read_bytes_w m n b =
    if b.pos + n < USIZE then InBuf.read_bytes n b
    else if m = .release ∧ b.len < b.pos + n - USIZE then (.err, b) else (.panic, b) := by
  unfold InBuf.read_bytes_w
  by_cases h : b.pos + n < USIZE
  · rw [addW_ok h, if_pos h]; rfl
  · rw [if_neg h]
    cases m with
    | debug => rw [addW_debug (by omega), if_neg (by simp)]
    | release =>
      rw [addW_release (by omega)]
      simp only [true_and]
      by_cases h' : b.pos + n - USIZE ≤ b.len
      · rw [if_pos h', if_neg (by omega)]
        have : slice b.data b.pos (b.pos + n - USIZE) = .panic := by unfold slice; rw [if_neg (by omega)]
        rw [this]
      · rw [if_neg h', if_pos (by omega)]

/-- so inside a buffer every overflow is a panic -/
theorem c96_read_bytes_panics (m : Build) (n : Nat) (hn : n < USIZE) (b : InBuf) (hb : b.pos ≤ b.len) (h : USIZE ≤ b.pos + n) :
    InBuf.read_bytes_w m n b = (.panic, b) := by
  rw [c96_read_bytes m n hn, if_neg (by omega), if_neg (by omega)]

/-- `skip(n)`: as in C21 if `len + n` is a `usize`; otherwise a panic with overflow checks, and without them `len` moves back -/
theorem c96_skip (m : Build) (n : Nat) (hn : n < USIZE) (b : OutBuf) (hb : b.len ≤ b.capacity) : OutBuf.skip_w m n b =
    if b.len + n < USIZE then OutBuf.skip n b
    else match m with
      | .debug => (.panic, b)
      | .release => (.ok (), { b with len := b.len + n - USIZE }) := by
  unfold OutBuf.skip_w
  by_cases h : b.len + n < USIZE
  · rw [addW_ok h, if_pos h]; rfl
  · rw [if_neg h]
    cases m with
    | debug => rw [addW_debug (by omega)]
    | release =>
      rw [addW_release (by omega)]
      simp only
      rw [if_pos (by omega)]

/-- `write_u16_at(pos, d)`: as in C21 if `pos + 2` is a `usize`; otherwise a panic, except that without overflow checks the last position
is refused in an empty buffer -/
theorem c96_write_u16_at (m : Build) (pos : Nat) (hp : pos < USIZE) (d : UInt16) (b : OutBuf) (hc : b.capacity + 2 < USIZE) :
    OutBuf.write_u16_at_w m pos d b =
    if pos + 2 < USIZE then OutBuf.write_u16_at pos d b
    else if m = .release ∧ b.len < pos + 2 - USIZE then (.err, b) else (.panic, b) := by
  unfold OutBuf.write_u16_at_w
  by_cases h : pos + 2 < USIZE
  · rw [addW_ok h, if_pos h]
    unfold OutBuf.write_u16_at
    simp only [addW_ok (show pos + 1 < USIZE by omega), Res.bind_ok]
    rfl
  · rw [if_neg h]
    cases m with
    | debug => rw [addW_debug (by omega), if_neg (by simp)]
    | release =>
      rw [addW_release (by omega)]
      simp only [true_and]
      by_cases h' : pos + 2 - USIZE ≤ b.len
      · rw [if_pos h', if_neg (by omega)]
        have : b.store pos ((d &&& 0xff00) >>> 8).toUInt8 = .panic := by
          unfold OutBuf.store; unfold OutBuf.capacity at hc; rw [if_neg (by omega)]
        rw [this, Res.bind_panic]
      · rw [if_neg h', if_pos (by omega)]

/-- VIOLATION: a length no buffer has is not refused: reading it panics in both builds; skipping it panics in one and in the other takes
back octets already written -/
theorem c96_buffer_violated :
    (∀ m, InBuf.read_bytes_w m (USIZE - 1) ⟨[1, 2], 1⟩ = (.panic, ⟨[1, 2], 1⟩)) ∧
    OutBuf.skip_w .debug (USIZE - 1) ⟨[1, 2, 3], 2⟩ = (.panic, ⟨[1, 2, 3], 2⟩) ∧
    OutBuf.skip_w .release (USIZE - 1) ⟨[1, 2, 3], 2⟩ = (.ok (), ⟨[1, 2, 3], 1⟩) ∧
    (∀ m, OutBuf.write_u16_at_w m (USIZE - 2) 7 ⟨[1, 2, 3], 2⟩ = (.panic, ⟨[1, 2, 3], 2⟩)) := by
  refine ⟨fun m => by cases m <;> decide, by decide, by decide, fun m => by cases m <;> decide⟩

/-- the same for a renderer -/
theorem c96_render (m : Build) (n : Nat) (hn : n < USIZE) (d : UInt16) (r : Render) (hc : r.buffer.capacity + 2 < USIZE) :
    (r.buffer.len + n < USIZE → Render.skip_w m n r = Render.skip n r) ∧
    (n + 2 < USIZE → Render.write_u16_at_w m n d r = Render.write_u16_at n d r) := by
  refine ⟨fun h => ?_, fun h => ?_⟩
  · have : OutBuf.skip_w m n r.buffer = OutBuf.skip n r.buffer := by
      unfold OutBuf.skip_w; rw [addW_ok h]; rfl
    unfold Render.skip_w Render.skip Render.onBuffer
    rw [this]
  · have := c96_write_u16_at m n hn d r.buffer hc
    rw [if_pos h] at this
    unfold Render.write_u16_at_w Render.write_u16_at Render.onBuffer
    rw [this]

/-! ## Names -/

namespace Name

/-- `split(start, count)`: as in C13 if `start + count` is a `usize`; otherwise a panic, or the error of a start behind the root -/
theorem c96_split (m : Build) {ls : List Label} (h : ValidName ls) (start count : Nat) (hc : count < USIZE) :
    split_w m (ofLabels ls) start count =
      if start + count < USIZE then split (ofLabels ls) start count
      else if start ≤ ls.length then .panic else .err := by
  have hl : ls.length + 1 ≤ 128 := by have := h.count; omega
  have h128 : 128 < USIZE := by decide
  unfold split_w
  by_cases hs : start ≤ ls.length
  · rw [ensure_bind_ok (by rw [ofLabels_count]; omega)]
    by_cases hw : start + count < USIZE
    · rw [if_pos hw]
      unfold split
      rw [ensure_bind_ok (by rw [ofLabels_count]; omega), addW_ok hw, Res.bind_ok]
      simp only [ofLabels_count]
      rw [addW_ok (by split <;> omega), Res.bind_ok]
    · rw [if_neg hw, if_pos hs]
      cases m with
      | debug => rw [addW_debug (by omega)]; rfl
      | release =>
        rw [addW_release (by omega), Res.bind_ok]
        simp only [ofLabels_count]
        rw [if_neg (by omega), addW_release (by omega), Res.bind_ok, if_neg (by omega)]
        by_cases he : start = start + count - USIZE + 1
        · rw [← he, slice_ok (Nat.le_refl _) (by simp; omega), Res.bind_ok, Nat.sub_self, List.take_zero]
          rfl
        · have : slice (ofLabels ls).offsets start (start + count - USIZE + 1) = .panic := by unfold slice; rw [if_neg (by omega)]
          rw [this]; rfl
  · rw [ensure_bind_err (by rw [ofLabels_count]; omega)]
    by_cases hw : start + count < USIZE
    · rw [if_pos hw, split_ofLabels h, if_neg hs]
    · rw [if_neg hw, if_neg hs]

/-- `parent(k)` with overflow checks is as in C13; without them, levels beyond the root are refused with an error -/
theorem c96_parent (m : Build) {ls : List Label} (h : ValidName ls) (k : Nat) (hk : k < USIZE) :
    parent_w m (ofLabels ls) k = if k ≤ ls.length then .ok (ofLabels (ls.drop k))
      else if k = ls.length + 1 ∨ m = .release then .err else .panic := by
  have hl : ls.length + 1 ≤ 128 := by have := h.count; omega
  have h128 : 128 < USIZE := by decide
  unfold parent_w
  rw [ofLabels_count]
  by_cases h1 : k ≤ ls.length + 1
  · rw [subW_ok h1, Res.bind_ok, c96_split m h _ _ (by omega), if_pos (by omega), split_ofLabels h]
    by_cases h2 : k ≤ ls.length
    · rw [if_pos h2, if_pos h2, List.take_of_length_le (by simp; omega)]
    · rw [if_neg h2, if_neg h2, if_pos (by omega)]
  · rw [if_neg (by omega)]
    unfold subW
    rw [if_neg h1]
    cases m with
    | debug => rw [if_neg (by simp; omega)]; rfl
    | release =>
      rw [if_pos (Or.inr rfl)]
      simp only [Res.bind_ok]
      rw [c96_split _ h _ _ (by omega), if_neg (by omega), if_neg (by omega)]

/-- VIOLATION: "all labels from the second on", asked for with the largest count there is, panics -/
theorem c96_split_violated (m : Build) : split_w m (ofLabels [[97], [98]]) 1 (USIZE - 1) = .panic ∧
    split_w m (ofLabels [[97], [98]]) 1 1000 = .ok (ofLabels [[98]]) ∧ split_w m (ofLabels [[97], [98]]) 0 (USIZE - 1) = .ok (ofLabels [[97], [98]]) := by
  cases m <;> decide

end Name

namespace LabelSequence

theorem add8_of {m : Build} {a b c : Nat} (h : cadd8 a b = .ok c) : add8 m a b = .ok c := by
  unfold cadd8 at h
  unfold add8
  split at h
  · rename_i h'; rw [if_pos h']; exact h
  · cases h

theorem sub8_of {m : Build} {a b c : Nat} (h : csub a b = .ok c) : sub8 m a b = .ok c := by
  unfold csub at h
  unfold sub8
  split at h
  · rename_i h'; rw [if_pos h']; exact h
  · cases h

theorem subAll8_of {m : Build} {x : Nat} {l r : List Nat} (h : subAll x l = .ok r) : subAll8 m x l = .ok r := by
  induction l generalizing r with
  | nil => exact h
  | cons v vs ih =>
    unfold subAll at h
    obtain ⟨v', h1, h2⟩ := Res.bind_eq_ok.1 h
    obtain ⟨vs', h3, h4⟩ := Res.bind_eq_ok.1 h2
    unfold subAll8
    rw [sub8_of h1, Res.bind_ok, ih h3, Res.bind_ok]
    exact h4

/-- `split(start, count)` of a run of labels: as in C17 if `start + count` is a `usize`; otherwise a panic, or the error of a start behind
the last label -/
theorem c96_seq_split (m : Build) {ls : List Label} (h : SeqOK ls) (start count : Nat) (hc : count < USIZE) :
    split_w m (ofLabels ls) start count =
      if start + count < USIZE then split (ofLabels ls) start count
      else if start < ls.length then .panic else .err := by
  have hl : ls.length ≤ 255 := by
    have := wire_length_ge ls
    have := h.2
    omega
  have h128 : 255 < USIZE := by decide
  have hcount : (ofLabels ls).label_count = ls.length := by simp [label_count, ofLabels]
  by_cases hs : start < ls.length ∧ 0 < count
  · by_cases hw : start + count < USIZE
    · rw [if_pos hw]
      have e := split_ofLabels h start count
      rw [if_pos hs] at e
      rw [e]
      unfold split at e
      unfold split_w
      rw [ensure_bind_ok (by rw [hcount]; omega)] at e ⊢
      rw [addW_ok hw, Res.bind_ok]
      simp only [hcount] at e ⊢
      rw [addW_ok (by split <;> omega), Res.bind_ok, subW_ok (by split <;> omega), Res.bind_ok]
      obtain ⟨ol, e1, e⟩ := Res.bind_eq_ok.1 e
      obtain ⟨b, e2, e⟩ := Res.bind_eq_ok.1 e
      obtain ⟨ll, e3, e⟩ := Res.bind_eq_ok.1 e
      obtain ⟨dl, e4, e⟩ := Res.bind_eq_ok.1 e
      obtain ⟨ofs, e5, e⟩ := Res.bind_eq_ok.1 e
      obtain ⟨dof, e6, e⟩ := Res.bind_eq_ok.1 e
      obtain ⟨⟨d, d'⟩, e7, e⟩ := Res.bind_eq_ok.1 e
      obtain ⟨⟨o, o'⟩, e8, e⟩ := Res.bind_eq_ok.1 e
      rw [e1, Res.bind_ok, e2, Res.bind_ok, add8_of e3, Res.bind_ok, add8_of e4, Res.bind_ok, e5, Res.bind_ok, sub8_of e6, Res.bind_ok,
        e7, Res.bind_ok]
      simp only
      rw [e8, Res.bind_ok]
      simp only at e ⊢
      split at e
      · rename_i h0
        rw [if_pos h0]
        obtain ⟨x, f1, e⟩ := Res.bind_eq_ok.1 e
        rw [subAll8_of f1, Res.bind_ok]; exact e
      · rename_i h0
        rw [if_neg h0]
        obtain ⟨x, f1, e⟩ := Res.bind_eq_ok.1 e
        obtain ⟨y, f2, e⟩ := Res.bind_eq_ok.1 e
        obtain ⟨z, f3, e⟩ := Res.bind_eq_ok.1 e
        rw [subAll8_of f1, Res.bind_ok, f2, Res.bind_ok, subAll8_of f3, Res.bind_ok]; exact e
    · rw [if_neg hw, if_pos hs.1]
      unfold split_w
      rw [ensure_bind_ok (by rw [hcount]; omega)]
      cases m with
      | debug => rw [addW_debug (by omega)]; rfl
      | release =>
        rw [addW_release (by omega), Res.bind_ok]
        simp only [hcount]
        rw [if_neg (by omega), addW_release (by omega), Res.bind_ok]
        generalize hq : start + count - USIZE = q
        have hq' : q < start := by omega
        by_cases h0 : q = 0
        · have : subW .release 0 1 = .ok (USIZE - 1) := by decide
          rw [h0, this, Res.bind_ok]
          have : idx (ofLabels ls).offsets (USIZE - 1) = .panic := by
            unfold idx
            rw [List.getElem?_eq_none (by simp [ofLabels]; omega)]
          rw [this, Res.bind_panic]
        · rw [subW_ok (by omega), Res.bind_ok]
          have hlast : q - 1 < ls.length := by omega
          have h63 := h.1 ls[q - 1] (List.getElem_mem hlast)
          have hsucc : (wire (ls.take q)).length = (wire (ls.take (q - 1))).length + (ls[q - 1].length + 1) := by
            have := wire_take_succ ls (q - 1) hlast
            rw [show q - 1 + 1 = q by omega] at this; omega
          have hstart : (wire (ls.take q)).length < (wire (ls.take start)).length := by
            have e1 := wire_take_succ ls q (by omega)
            have e2 : (wire (ls.take (q + 1))).length ≤ (wire (ls.take start)).length := by
              obtain ⟨t, ht⟩ : ∃ t, start = q + 1 + t := ⟨start - (q + 1), by omega⟩
              rw [ht, List.take_add (i := q + 1), wire_append, List.length_append]; omega
            omega
          have hle := wire_take_le ls start
          have h255 := h.2
          simp only [ofLabels]
          rw [starts_idx ls _ hlast, Res.bind_ok, wire_idx_len ls _ hlast, Res.bind_ok, u8_len h63]
          rw [add8_of (cadd8_ok (by omega)), Res.bind_ok, add8_of (cadd8_ok (by omega)), Res.bind_ok, starts_idx ls start (by omega), Res.bind_ok,
            ← hsucc]
          unfold sub8
          rw [if_neg (by omega)]
          simp only [Res.bind_ok]
          have : drain (wire ls) (wire (ls.take start)).length (wire (ls.take q)).length = .panic := by
            unfold drain slice
            rw [if_neg (by omega)]; rfl
          rw [this, Res.bind_panic]
  · unfold split_w
    rw [ensure_bind_err (by rw [hcount]; omega)]
    by_cases hw : start + count < USIZE
    · rw [if_pos hw, split_ofLabels h, if_neg hs]
    · rw [if_neg hw, if_neg (by omega)]

/-- VIOLATION: the same for a run of labels -/
theorem c96_seq_split_violated (m : Build) : split_w m (ofLabels [[97], [98]]) 1 (USIZE - 1) = .panic ∧
    split_w m (ofLabels [[97], [98]]) 1 1000 = .ok (ofLabels [[98]], ofLabels [[97]]) := by
  cases m <;> decide

end LabelSequence
end R53
