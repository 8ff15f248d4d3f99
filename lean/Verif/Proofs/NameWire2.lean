import Verif.Proofs.NameWire
/-!
# `Name::from_wire`: summary
-/
namespace R53

/-- decoding is deterministic -/
theorem Decodes.det {msg : List UInt8} {limit pos : Nat} {ls ls' : List Label} {e e' : Nat}
    (h : Decodes msg limit pos ls e) (h' : Decodes msg limit pos ls' e') : ls = ls' ∧ e = e' := by
  induction h generalizing ls' e' with
  | root h1 =>
    cases h' with
    | root => exact ⟨rfl, rfl⟩
    | label len g1 g2 => rw [h1] at g1; simp only [Option.some.injEq] at g1; subst g1; simp at g2
    | pointer hi lo g1 g2 => rw [h1] at g1; simp only [Option.some.injEq] at g1; subst g1; simp at g2
  | label len h1 h2 h3 h4 h5 h6 ih =>
    cases h' with
    | root g1 => rw [h1] at g1; simp only [Option.some.injEq] at g1; subst g1; simp at h2
    | label len' g1 g2 g3 g4 g5 g6 =>
      rw [h1] at g1; simp only [Option.some.injEq] at g1; subst g1
      have := ih g6
      rw [h5] at g5
      exact ⟨by rw [g5, this.1], this.2⟩
    | pointer hi lo g1 g2 => rw [h1] at g1; simp only [Option.some.injEq] at g1; subst g1; omega
  | pointer hi lo h1 h2 h3 h4 h5 ih =>
    cases h' with
    | root g1 => rw [h1] at g1; simp only [Option.some.injEq] at g1; subst g1; simp at h2
    | label len' g1 g2 g3 g4 g5 g6 => rw [h1] at g1; simp only [Option.some.injEq] at g1; subst g1; omega
    | pointer hi' lo' g1 g2 g3 g4 g5 =>
      rw [h1] at g1; simp only [Option.some.injEq] at g1; subst g1
      rw [h3] at g3; simp only [Option.some.injEq] at g3; subst g3
      exact ⟨(ih g5).1, rfl⟩

/-- a larger limit allows at least as much -/
theorem Decodes.mono {msg : List UInt8} {limit limit' pos : Nat} {ls : List Label} {e : Nat}
    (h : Decodes msg limit pos ls e) (hl : limit ≤ limit') : Decodes msg limit' pos ls e := by
  induction h with
  | root h1 => exact .root h1
  | label len h1 h2 h3 h4 h5 h6 ih => exact .label len h1 h2 h3 h4 h5 (ih hl)
  | pointer hi lo h1 h2 h3 h4 h5 ih => exact .pointer hi lo h1 h2 h3 (by omega) h5

theorem Decodes.valid {msg : List UInt8} {limit pos : Nat} {ls : List Label} {e : Nat}
    (h : Decodes msg limit pos ls e) : ∀ l ∈ ls, ValidLabel l := by
  induction h with
  | root h1 => simp
  | label len h1 h2 h3 h4 h5 h6 ih =>
    intro x hx
    rcases List.mem_cons.mp hx with rfl | hx
    · exact ⟨by omega, by omega⟩
    · exact ih x hx
  | pointer hi lo h1 h2 h3 h4 h5 ih => exact ih

theorem Decodes.end_le {msg : List UInt8} {limit pos : Nat} {ls : List Label} {e : Nat}
    (h : Decodes msg limit pos ls e) : pos < e ∧ e ≤ msg.length := by
  induction h with
  | root h1 => exact ⟨by omega, (List.getElem?_eq_some_iff.mp h1).1⟩
  | label len h1 h2 h3 h4 h5 h6 ih => omega
  | pointer hi lo h1 h2 h3 h4 h5 ih => exact ⟨by omega, (List.getElem?_eq_some_iff.mp h3).1⟩

/-- the octets of an uncompressed name decode to it -/
theorem Decodes.of_wire {msg rest : List UInt8} {limit pos : Nat} {ls : List Label} (hv : ∀ l ∈ ls, ValidLabel l)
    (h : msg.drop pos = nameWire ls ++ rest) : Decodes msg limit pos ls (pos + (nameWire ls).length) := by
  have getd : ∀ {pos : Nat} {c : UInt8} {t : List UInt8}, msg.drop pos = c :: t → msg[pos]? = some c := by
    intro pos c t h
    have := congrArg (·[0]?) h
    simpa using this
  induction ls generalizing pos with
  | nil => exact .root (getd (by simpa [nameWire] using h))
  | cons l ls ih =>
    have hl := hv l (by simp)
    have hu := u8_len hl.2
    have h' : msg.drop pos = UInt8.ofNat l.length :: (l ++ (nameWire ls ++ rest)) := by
      rw [h]; simp [nameWire]
    have h1 : msg.drop (pos + 1) = l ++ (nameWire ls ++ rest) := by
      rw [← List.drop_drop, h']; rfl
    have h2 : msg.drop (pos + 1 + l.length) = nameWire ls ++ rest := by
      rw [← List.drop_drop, h1, List.drop_left]
    have := ih (fun x hx => hv x (by simp [hx])) h2
    have hlen : pos + (nameWire (l :: ls)).length = pos + 1 + l.length + (nameWire ls).length := by
      simp [nameWire]; omega
    rw [hlen]
    exact .label (UInt8.ofNat l.length) (getd h') (by rw [hu]; exact hl.1) (by rw [hu]; exact hl.2) hu.symm
      (by rw [hu, h1, List.take_left]) (by rw [hu]; exact this)

namespace Name

/-- everything about `from_wire` -/
theorem from_wire_spec (b : InBuf) :
    (∃ ls e, Decodes b.data b.pos b.pos ls e ∧ ValidName ls ∧
      from_wire b = (.ok (ofLabels ls), { b with pos := e })) ∨
    ((¬ ∃ ls e, Decodes b.data b.pos b.pos ls e ∧ (nameWire ls).length ≤ 255) ∧
      (from_wire b).1 = .err ∧ (from_wire b).2.data = b.data) := by
  unfold from_wire
  simp only [InBuf.len, InBuf.position]
  generalize hs : (⟨0, 0, 0, false, [], [], false, .Start, b.pos, b.pos, 0, false⟩ : Fw) = s
  have hat : AtStart s b [] := by subst hs; exact ⟨rfl, rfl, rfl, rfl, rfl, rfl, rfl⟩
  have hbg : s.biggest = b.pos := by subst hs; rfl
  have hseen : s.seen = false := by subst hs; rfl
  have hcu : s.cused = 0 := by subst hs; rfl
  have hfail : ∀ {r : Res Fw × InBuf}, Fails r b.data →
      (match r with
        | (.ok s', b1) => if s'.done = true then
            match InBuf.set_position (b.pos + s'.cused) b1 with
            | (.ok _, b2) => ((.ok ⟨s'.data, s'.offsets⟩ : Res Name), b2)
            | (.err, b2) => (.err, b2)
            | (.panic, b2) => (.panic, b2)
          else (.err, b1)
        | (.err, b1) => (.err, b1)
        | (.panic, b1) => (.panic, b1)).1 = .err ∧
      (match r with
        | (.ok s', b1) => if s'.done = true then
            match InBuf.set_position (b.pos + s'.cused) b1 with
            | (.ok _, b2) => ((.ok ⟨s'.data, s'.offsets⟩ : Res Name), b2)
            | (.err, b2) => (.err, b2)
            | (.panic, b2) => (.panic, b2)
          else (.err, b1)
        | (.err, b1) => (.err, b1)
        | (.panic, b1) => (.panic, b1)).2.data = b.data := by
    rintro ⟨r, b1⟩ ⟨h1, h2⟩
    rcases h2 with h2 | ⟨s', h2, h3⟩
    · simp only at h2; subst h2; exact ⟨rfl, h1⟩
    · simp only at h2; subst h2; simp only [h3, Bool.false_eq_true, if_false]; exact ⟨trivial, h1⟩
  by_cases hp : b.pos ≤ b.data.length
  · rcases fwLoop_start b s [] hat (by simp) (by omega) with ⟨ls, e, h1, h2, h3, h4, h5, h6⟩ | ⟨h1, h2⟩
    · left
      rw [hbg] at h1
      simp only [List.nil_append, hseen, hcu, Bool.false_eq_true, if_false, Nat.zero_add] at h2 h6
      refine ⟨ls, e, h1, ⟨h5, h2⟩, ?_⟩
      obtain ⟨g1, s', g2, g3, g4, g5, g6⟩ := h6
      generalize fwLoop b.data.length s b = r at *
      obtain ⟨r, b1⟩ := r
      simp only at g1 g2
      subst g2
      simp only [g3, if_true, g6]
      have : InBuf.set_position (b.pos + (e - b.pos)) b1 = (.ok (), { b with pos := e }) := by
        unfold InBuf.set_position InBuf.len
        rw [if_pos (by rw [g1]; omega)]
        obtain ⟨d1, p1⟩ := b1
        simp only at g1
        subst g1
        simp only [Prod.mk.injEq, InBuf.mk.injEq, true_and]; omega
      rw [this]
      simp only [g4, g5, nameWire_eq]
      rfl
    · right
      simp only [List.nil_append, hbg] at h1
      exact ⟨h1, hfail h2⟩
  · right
    refine ⟨?_, hfail ?_⟩
    · rintro ⟨ls, e, h, _⟩
      have := h.end_le
      omega
    · rw [fwLoop_stop (by rw [hat.cur]; omega)]
      exact ⟨rfl, Or.inr ⟨s, rfl, hat.done⟩⟩

theorem from_wire_ok {b b' : InBuf} {n : Name} (h : from_wire b = (.ok n, b')) :
    ∃ ls, Decodes b.data b.pos b.pos ls b'.pos ∧ ValidName ls ∧ n = ofLabels ls ∧ b'.data = b.data := by
  rcases from_wire_spec b with ⟨ls, e, h1, h2, h3⟩ | ⟨_, h2, _⟩
  · rw [h3] at h
    simp only [Prod.mk.injEq, Res.ok.injEq] at h
    obtain ⟨rfl, rfl⟩ := h
    exact ⟨ls, h1, h2, rfl, rfl⟩
  · rw [h] at h2; simp at h2

theorem from_wire_decodes {b : InBuf} {ls : List Label} {e : Nat} (h : Decodes b.data b.pos b.pos ls e)
    (hl : (nameWire ls).length ≤ 255) : from_wire b = (.ok (ofLabels ls), { b with pos := e }) := by
  rcases from_wire_spec b with ⟨ls', e', h1, h2, h3⟩ | ⟨h1, _⟩
  · obtain ⟨rfl, rfl⟩ := h.det h1
    exact h3
  · exact absurd ⟨ls, e, h, hl⟩ h1

end Name
end R53
