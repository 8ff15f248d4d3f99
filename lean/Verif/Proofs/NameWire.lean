import Verif.Proofs.NameCmp
import Verif.Proofs.Buffer
/-!
# `Name::from_wire` against the RFC 1035 decoding relation
-/
namespace R53
namespace Name

/-- one iteration of the loop, without the termination bookkeeping -/
theorem fwLoop_eq (len : Nat) (s : Fw) (b : InBuf) : fwLoop len s b =
    if s.current < len ∧ s.done = false ∧ s.brk = false then
      match InBuf.read_u8 b with
      | (.ok c, b1) =>
        match fwStep s c with
        | .ok (s1, none) => fwLoop len s1 b1
        | .ok (s1, some p) =>
          match InBuf.set_position p b1 with
          | (.ok _, b2) => fwLoop len s1 b2
          | (.err, b2) => (.err, b2)
          | (.panic, b2) => (.panic, b2)
        | .err => (.err, b1)
        | .panic => (.panic, b1)
      | (.err, b1) => (.err, b1)
      | (.panic, b1) => (.panic, b1)
    else (.ok s, b) := by
  rw [fwLoop]
  by_cases h : s.current < len ∧ s.done = false ∧ s.brk = false
  · simp only [dif_pos h, if_pos h]
    generalize InBuf.read_u8 b = r
    obtain ⟨r, b1⟩ := r
    cases r with
    | ok c =>
      simp only
      generalize hs : fwStep s c = q
      split
      · simp_all
      · rename_i p
        simp only
        cases InBuf.set_position p b1 with
        | mk r b2 => cases r <;> rfl
      · simp_all
      · simp_all
    | err => rfl
    | panic => rfl
  · simp only [dif_neg h, if_neg h]

theorem fwLoop_stop {len : Nat} {s : Fw} {b : InBuf} (h : ¬ (s.current < len ∧ s.done = false ∧ s.brk = false)) :
    fwLoop len s b = (.ok s, b) := by
  rw [fwLoop_eq, if_neg h]

theorem fwLoop_step {len : Nat} {s s1 : Fw} {b : InBuf} {c : UInt8} (h1 : s.current < len) (h2 : s.done = false)
    (h3 : s.brk = false) (hc : b.data[b.pos]? = some c) (hs : fwStep s c = .ok (s1, none)) :
    fwLoop len s b = fwLoop len s1 { b with pos := b.pos + 1 } := by
  rw [fwLoop_eq, if_pos ⟨h1, h2, h3⟩, InBuf.read_u8_eq, hc]
  simp only [hs]

theorem fwLoop_seek {len : Nat} {s s1 : Fw} {b : InBuf} {c : UInt8} {p : Nat} (h1 : s.current < len) (h2 : s.done = false)
    (h3 : s.brk = false) (hc : b.data[b.pos]? = some c) (hs : fwStep s c = .ok (s1, some p)) (hp : p ≤ b.data.length) :
    fwLoop len s b = fwLoop len s1 { b with pos := p } := by
  rw [fwLoop_eq, if_pos ⟨h1, h2, h3⟩, InBuf.read_u8_eq, hc]
  simp only [hs]
  have : InBuf.set_position p { b with pos := b.pos + 1 } = (.ok (), { b with pos := p }) := by
    unfold InBuf.set_position; rw [if_pos (by exact hp)]
  rw [this]

theorem fwLoop_err {len : Nat} {s : Fw} {b : InBuf} {c : UInt8} (h1 : s.current < len) (h2 : s.done = false)
    (h3 : s.brk = false) (hc : b.data[b.pos]? = some c) (hs : fwStep s c = .err) :
    fwLoop len s b = (.err, { b with pos := b.pos + 1 }) := by
  rw [fwLoop_eq, if_pos ⟨h1, h2, h3⟩, InBuf.read_u8_eq, hc]
  simp only [hs]

/-- the loop is at the beginning of a label with `acc` decoded so far -/
structure AtStart (s : Fw) (b : InBuf) (acc : List Label) : Prop where
  state : s.state = .Start
  done : s.done = false
  brk : s.brk = false
  cur : s.current = b.pos
  data : s.data = wire acc
  offs : s.offsets = starts 0 acc
  nused : s.nused = (wire acc).length

/-- failure: an error or the end of the buffer before the name ended -/
def Fails (r : Res Fw × InBuf) (d : List UInt8) : Prop :=
  r.2.data = d ∧ (r.1 = .err ∨ ∃ s, r.1 = .ok s ∧ s.done = false)

/-- success with all labels and the consumed count -/
def Succeeds (r : Res Fw × InBuf) (d : List UInt8) (ls : List Label) (cused : Nat) : Prop :=
  r.2.data = d ∧ ∃ s, r.1 = .ok s ∧ s.done = true ∧ s.data = nameWire ls ∧ s.offsets = starts 0 (ls ++ [[]]) ∧
    s.cused = cused

/-- copying the octets of a label -/
theorem fwLoop_ordinary (n : Nat) (s : Fw) (b : InBuf) (hn : s.n = n) (hst : s.state = .Ordinary) (hpos : 0 < n)
    (hd : s.done = false) (hb : s.brk = false) (hcur : s.current = b.pos) :
    (b.pos + n ≤ b.data.length ∧
      fwLoop b.data.length s b = fwLoop b.data.length
        { s with n := 0, data := s.data ++ (b.data.drop b.pos).take n, current := s.current + n,
                 cused := if s.seen then s.cused else s.cused + n, state := .Start }
        { b with pos := b.pos + n }) ∨
    (b.data.length < b.pos + n ∧ Fails (fwLoop b.data.length s b) b.data) := by
  induction n generalizing s b with
  | zero => omega
  | succ n ih =>
    by_cases hlt : b.pos < b.data.length
    · have hc : b.data[b.pos]? = some b.data[b.pos] := List.getElem?_eq_getElem hlt
      have hdrop : b.data.drop b.pos = b.data[b.pos] :: b.data.drop (b.pos + 1) := (List.getElem_cons_drop (h := hlt)).symm
      generalize b.data[b.pos] = c at hc hdrop
      have hstep : fwStep s c = .ok ({ s with
          current := s.current + 1, cused := if s.seen then s.cused else s.cused + 1
          data := s.data ++ [c], n := n, state := if n = 0 then .Start else .Ordinary }, none) := by
        unfold fwStep
        simp only [hst, hn]
        rw [if_neg (by omega)]
        simp
      rw [fwLoop_step (by omega) hd hb hc hstep]
      by_cases h0 : n = 0
      · subst h0
        left
        refine ⟨by omega, ?_⟩
        rw [hdrop]
        simp
      · have := ih { s with
          current := s.current + 1, cused := if s.seen then s.cused else s.cused + 1
          data := s.data ++ [c], n := n, state := if n = 0 then .Start else .Ordinary } { b with pos := b.pos + 1 }
          rfl (by simp [h0]) (by omega) hd hb (by simp [hcur])
        simp only at this
        rcases this with ⟨h1, h2⟩ | ⟨h1, h2⟩
        · left
          refine ⟨by omega, ?_⟩
          rw [h2, hdrop]
          congr 1
          · congr 1
            · by_cases hs : s.seen <;> simp [hs]; omega
            · simp
            · omega
          · congr 1; omega
        · right
          exact ⟨by omega, h2⟩
    · right
      refine ⟨by omega, ?_⟩
      rw [fwLoop_stop (by omega)]
      exact ⟨rfl, Or.inr ⟨s, rfl, hd⟩⟩

theorem and_c0 (c : UInt8) : c &&& 0xc0 = 0xc0 ↔ 192 ≤ c.toNat := by
  revert c; apply forall_u8'; decide +kernel

theorem and_not_c0 (c : UInt8) (h : 192 ≤ c.toNat) : (c &&& ~~~ 0xc0).toNat = c.toNat - 192 := by
  revert c; apply forall_u8'; decide +kernel

/-- the loop from a label start decides and computes the decoding -/
theorem fwLoop_start (b : InBuf) (s : Fw) (acc : List Label) (h : AtStart s b acc) (hacc : (wire acc).length ≤ 255)
    (hbig : s.biggest ≤ b.data.length) :
    (∃ ls e, Decodes b.data s.biggest b.pos ls e ∧ (nameWire (acc ++ ls)).length ≤ 255 ∧ b.pos < e ∧ e ≤ b.data.length ∧
      (∀ l ∈ ls, ValidLabel l) ∧
      Succeeds (fwLoop b.data.length s b) b.data (acc ++ ls) (if s.seen then s.cused else s.cused + (e - b.pos))) ∨
    ((¬ ∃ ls e, Decodes b.data s.biggest b.pos ls e ∧ (nameWire (acc ++ ls)).length ≤ 255) ∧
      Fails (fwLoop b.data.length s b) b.data) := by
  rcases Nat.lt_or_ge b.pos b.data.length with hlt | hlt
  rotate_left
  · right
    refine ⟨?_, ?_⟩
    · rintro ⟨ls, e, hdec, _⟩
      have hnone : b.data[b.pos]? = none := List.getElem?_eq_none (by omega)
      cases hdec <;> simp_all
    · rw [fwLoop_stop (by rw [h.cur]; omega)]
      exact ⟨rfl, Or.inr ⟨s, rfl, h.done⟩⟩
  have hc : b.data[b.pos]? = some b.data[b.pos] := List.getElem?_eq_getElem hlt
  generalize b.data[b.pos] = c at hc
  have hcur : s.current < b.data.length := by rw [h.cur]; exact hlt
  by_cases hc63 : c.toNat ≤ 63
  · -- a length octet
    by_cases hlen : (wire acc).length + (c.toNat + 1) ≤ 255
    · have hstep : fwStep s c = .ok ({ s with
          current := s.current + 1, cused := if s.seen then s.cused else s.cused + 1,
          offsets := s.offsets ++ [s.nused % 256], nused := s.nused + (c.toNat + 1),
          data := s.data ++ [c], done := s.done || c == 0, n := c.toNat, state := .Ordinary }, none) := by
        unfold fwStep
        simp only [h.state]
        rw [if_pos (by simpa [MAX_LABEL_LEN] using hc63)]
        rw [if_pos (by simp only [h.nused, MAX_WIRE_LEN]; exact hlen)]
      rw [fwLoop_step hcur h.done h.brk hc hstep]
      by_cases h0 : c = 0
      · -- root
        left
        subst h0
        refine ⟨[], b.pos + 1, .root hc, ?_, by omega, by omega, by simp, ?_⟩
        · simp [nameWire] at hlen ⊢; omega
        · rw [fwLoop_stop (by simp)]
          refine ⟨rfl, _, rfl, by simp, ?_, ?_, ?_⟩
          · simp [h.data, nameWire]
          · simp only [h.offs, h.nused, List.append_nil]
            rw [starts_append, Nat.mod_eq_of_lt (by simp at hlen; omega)]; simp
          · simp
      · have hcpos : 0 < c.toNat := by
          rcases Nat.eq_zero_or_pos c.toNat with h' | h'
          · exact absurd (UInt8.toNat_inj.mp (by simpa using h')) h0
          · exact h'
        have hord := fwLoop_ordinary c.toNat ({ s with
          current := s.current + 1, cused := if s.seen then s.cused else s.cused + 1,
          offsets := s.offsets ++ [s.nused % 256], nused := s.nused + (c.toNat + 1),
          data := s.data ++ [c], done := s.done || c == 0, n := c.toNat, state := .Ordinary })
          { b with pos := b.pos + 1 } rfl rfl hcpos (by simp [h.done, h0]) h.brk (by simp [h.cur])
        simp only at hord
        rcases hord with ⟨hfit, heq⟩ | ⟨hfit, hf⟩
        · rw [heq]
          have hl : ((b.data.drop (b.pos + 1)).take c.toNat).length = c.toNat := by
            simp; omega
          have hw : wire (acc ++ [(b.data.drop (b.pos + 1)).take c.toNat]) =
              wire acc ++ c :: (b.data.drop (b.pos + 1)).take c.toNat := by
            rw [wire_append, wire_cons, hl]; simp
          generalize hL : (b.data.drop (b.pos + 1)).take c.toNat = l at hl hw heq
          have ih := fwLoop_start { b with pos := b.pos + 1 + c.toNat } ({ s with
              current := s.current + 1 + c.toNat,
              cused := if s.seen then (if s.seen then s.cused else s.cused + 1) else
                (if s.seen then s.cused else s.cused + 1) + c.toNat,
              offsets := s.offsets ++ [s.nused % 256], nused := s.nused + (c.toNat + 1),
              data := s.data ++ [c] ++ l, done := s.done || c == 0, n := 0, state := .Start })
            (acc ++ [l])
            ⟨rfl, by simp [h.done, h0], h.brk, by simp [h.cur], by rw [hw, h.data]; simp,
              by rw [h.offs, h.nused, starts_append, Nat.mod_eq_of_lt (by omega)]; simp,
              by rw [hw, h.nused]; simp; omega⟩
            (by rw [hw]; simp; omega) hbig
          simp only [hL] at ih ⊢
          have hlabel : ∀ {ls e}, Decodes b.data s.biggest (b.pos + 1 + c.toNat) ls e →
              Decodes b.data s.biggest b.pos (l :: ls) e := fun hd => .label c hc hcpos hc63 hl hL hd
          rcases ih with ⟨ls, e, hdec, hle, he, hel, hvl, hsucc⟩ | ⟨hno, hf⟩
          · left
            refine ⟨l :: ls, e, hlabel hdec, by simpa using hle, by omega, hel, ?_, ?_⟩
            · intro x hx
              rcases List.mem_cons.mp hx with rfl | hx
              · exact ⟨by omega, by omega⟩
              · exact hvl x hx
            · have : acc ++ l :: ls = acc ++ [l] ++ ls := by simp
              rw [this]
              by_cases hs : s.seen
              · simpa [hs] using hsucc
              · simp only [hs, Bool.false_eq_true, if_false] at hsucc ⊢
                rw [show s.cused + (e - b.pos) = s.cused + 1 + c.toNat + (e - (b.pos + 1 + c.toNat)) by omega]
                exact hsucc
          · right
            refine ⟨?_, hf⟩
            rintro ⟨ls, e, hdec, hle⟩
            cases hdec with
            | root h' => rw [hc] at h'; simp at h'; exact h0 h'
            | label len h1 h2 h3 h4 h5 h6 =>
              rw [hc] at h1
              simp only [Option.some.injEq] at h1
              subst h1
              rw [hL] at h5
              subst h5
              exact hno ⟨_, e, h6, by simpa using hle⟩
            | pointer hi lo h1 h2 h3 h4 h5 =>
              rw [hc] at h1; simp only [Option.some.injEq] at h1; subst h1; omega
        · right
          refine ⟨?_, hf⟩
          rintro ⟨ls, e, hdec, hle⟩
          cases hdec with
          | root h' => rw [hc] at h'; simp at h'; exact h0 h'
          | label len h1 h2 h3 h4 h5 h6 =>
            rw [hc] at h1
            simp only [Option.some.injEq] at h1
            subst h1
            rw [← h5] at h4
            simp at h4
            omega
          | pointer hi lo h1 h2 h3 h4 h5 =>
            rw [hc] at h1; simp only [Option.some.injEq] at h1; subst h1; omega
    · -- too long
      have hstep : fwStep s c = .err := by
        unfold fwStep
        simp only [h.state]
        rw [if_pos (by simpa [MAX_LABEL_LEN] using hc63)]
        rw [if_neg (by simp only [h.nused, MAX_WIRE_LEN]; exact hlen)]
      right
      refine ⟨?_, ?_⟩
      · rintro ⟨ls, e, hdec, hle⟩
        cases hdec with
        | root h' => rw [hc] at h'; simp at h'; subst h'; simp [nameWire] at hle hlen; omega
        | label len h1 h2 h3 h4 h5 h6 =>
          rw [hc] at h1
          simp only [Option.some.injEq] at h1
          subst h1
          simp only [nameWire, wire_append, wire_cons, List.length_append, List.length_cons] at hle
          omega
        | pointer hi lo h1 h2 h3 h4 h5 =>
          rw [hc] at h1; simp only [Option.some.injEq] at h1; subst h1; omega
      · rw [fwLoop_err hcur h.done h.brk hc hstep]
        exact ⟨rfl, Or.inl rfl⟩
  · by_cases hptr : 192 ≤ c.toNat
    · -- a pointer
      have hstep : fwStep s c = .ok ({ s with
          current := s.current + 1, cused := if s.seen then s.cused else s.cused + 1,
          newCur := c.toNat - 192, n := 1, state := .NewCurrent }, none) := by
        unfold fwStep
        simp only [h.state]
        rw [if_neg (by simpa [MAX_LABEL_LEN] using hc63), if_pos ((and_c0 c).mpr hptr), and_not_c0 c hptr]
      rw [fwLoop_step hcur h.done h.brk hc hstep]
      have hinv : ∀ {ls e}, Decodes b.data s.biggest b.pos ls e → ∃ lo e', b.data[b.pos + 1]? = some lo ∧
          (c.toNat - 192) * 256 + lo.toNat < s.biggest ∧
          Decodes b.data ((c.toNat - 192) * 256 + lo.toNat) ((c.toNat - 192) * 256 + lo.toNat) ls e' := by
        intro ls e hdec
        cases hdec with
        | root h' => rw [hc] at h'; simp at h'; subst h'; simp at hptr
        | label len h1 h2 h3 h4 h5 h6 =>
          rw [hc] at h1; simp only [Option.some.injEq] at h1; subst h1; omega
        | pointer hi lo h1 h2 h3 h4 h5 =>
          rw [hc] at h1; simp only [Option.some.injEq] at h1; subst h1
          exact ⟨lo, _, h3, h4, h5⟩
      by_cases hlt2 : b.pos + 1 < b.data.length
      · have hc2 : b.data[b.pos + 1]? = some b.data[b.pos + 1] := List.getElem?_eq_getElem hlt2
        generalize b.data[b.pos + 1] = c2 at hc2
        by_cases hbg : (c.toNat - 192) * 256 + c2.toNat < s.biggest
        · have hstep2 : fwStep { s with
              current := s.current + 1, cused := if s.seen then s.cused else s.cused + 1,
              newCur := c.toNat - 192, n := 1, state := .NewCurrent } c2 = .ok ({ s with
              current := (c.toNat - 192) * 256 + c2.toNat, cused := if s.seen then s.cused else s.cused + 2,
              newCur := (c.toNat - 192) * 256 + c2.toNat, n := 0, state := .Start, seen := true,
              biggest := (c.toNat - 192) * 256 + c2.toNat }, some ((c.toNat - 192) * 256 + c2.toNat)) := by
            unfold fwStep
            simp only
            rw [if_neg (by omega), if_neg (by omega), if_pos hbg]
            by_cases hs : s.seen <;> simp [hs]
          rw [fwLoop_seek (b := { b with pos := b.pos + 1 }) (by simp only; rw [h.cur]; exact hlt2) (by exact h.done) (by exact h.brk) hc2 hstep2
            (by simp only; omega)]
          have ih := fwLoop_start { b with pos := (c.toNat - 192) * 256 + c2.toNat } ({ s with
              current := (c.toNat - 192) * 256 + c2.toNat, cused := if s.seen then s.cused else s.cused + 2,
              newCur := (c.toNat - 192) * 256 + c2.toNat, n := 0, state := .Start, seen := true,
              biggest := (c.toNat - 192) * 256 + c2.toNat }) acc
            ⟨rfl, h.done, h.brk, rfl, h.data, h.offs, h.nused⟩ hacc (by simp only; omega)
          simp only at ih ⊢
          rcases ih with ⟨ls, e, hdec, hle, he, hel, hvl, hsucc⟩ | ⟨hno, hf⟩
          · left
            refine ⟨ls, b.pos + 2, .pointer c c2 hc hptr hc2 hbg hdec, hle, by omega, by omega, hvl, ?_⟩
            by_cases hs : s.seen
            · simpa [hs] using hsucc
            · simp only [hs, Bool.false_eq_true, if_false, if_true] at hsucc ⊢
              rw [show b.pos + 2 - b.pos = 2 by omega]
              exact hsucc
          · right
            refine ⟨?_, hf⟩
            rintro ⟨ls, e, hdec, hle⟩
            obtain ⟨lo, e', h1, h2, h3⟩ := hinv hdec
            rw [hc2] at h1; simp only [Option.some.injEq] at h1; subst h1
            exact hno ⟨ls, e', h3, hle⟩
        · have hstep2 : fwStep { s with
              current := s.current + 1, cused := if s.seen then s.cused else s.cused + 1,
              newCur := c.toNat - 192, n := 1, state := .NewCurrent } c2 = .err := by
            unfold fwStep
            simp only
            rw [if_neg (by omega), if_neg (by omega), if_neg hbg]
          right
          refine ⟨?_, ?_⟩
          · rintro ⟨ls, e, hdec, hle⟩
            obtain ⟨lo, e', h1, h2, h3⟩ := hinv hdec
            rw [hc2] at h1; simp only [Option.some.injEq] at h1; subst h1
            exact hbg h2
          · rw [fwLoop_err (b := { b with pos := b.pos + 1 }) (by simp only; rw [h.cur]; exact hlt2) (by exact h.done) (by exact h.brk) hc2 hstep2]
            exact ⟨rfl, Or.inl rfl⟩
      · right
        refine ⟨?_, ?_⟩
        · rintro ⟨ls, e, hdec, hle⟩
          obtain ⟨lo, e', h1, h2, h3⟩ := hinv hdec
          have := (List.getElem?_eq_some_iff.mp h1).1
          omega
        · rw [fwLoop_stop (by simp only; rw [h.cur]; omega)]
          exact ⟨rfl, Or.inr ⟨_, rfl, h.done⟩⟩
    · -- 64..191
      have hstep : fwStep s c = .err := by
        unfold fwStep
        simp only [h.state]
        rw [if_neg (by simpa [MAX_LABEL_LEN] using hc63), if_neg (fun h' => hptr ((and_c0 c).mp h'))]
      right
      refine ⟨?_, ?_⟩
      · rintro ⟨ls, e, hdec, hle⟩
        cases hdec with
        | root h' => rw [hc] at h'; simp at h'; subst h'; simp at hc63
        | label len h1 h2 h3 h4 h5 h6 =>
          rw [hc] at h1; simp only [Option.some.injEq] at h1; subst h1; omega
        | pointer hi lo h1 h2 h3 h4 h5 =>
          rw [hc] at h1; simp only [Option.some.injEq] at h1; subst h1; omega
      · rw [fwLoop_err hcur h.done h.brk hc hstep]
        exact ⟨rfl, Or.inl rfl⟩
termination_by (s.biggest, b.data.length - b.pos)
decreasing_by
  all_goals first
    | (apply Prod.Lex.left; assumption)
    | (apply Prod.Lex.right; omega)
    | (apply Prod.Lex.right; simp only; omega)

end Name
end R53
