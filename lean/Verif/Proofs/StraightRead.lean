import Verif.Proofs.LimitRender
import Verif.Props.Rounds
/-!
# Reading a name whose pointers go straight to a label

`Name.from_wire` of such a name makes one round for each octet of the name and two for each pointer, of which there is at most one for each label.
-/
namespace R53
namespace Name

theorem both_step {len k : Nat} {s : Fw} {b b1 : InBuf} {c : UInt8} (hr : InBuf.read_u8 b = (.ok c, b1))
    (h : ∀ s1 o b2, fwStep s c = .ok (s1, o) → (o = none → b2 = b1) → (∀ p, o = some p → InBuf.set_position p b1 = (.ok (), b2)) →
      fwLoopIn len k s1 b2 = fwLoop len s1 b2) : fwLoopIn len (k + 1) s b = fwLoop len s b := by
  rw [fwLoop, fwLoopIn]
  by_cases hc : s.current < len ∧ s.done = false ∧ s.brk = false
  · rw [if_pos hc, dif_pos hc, hr]
    simp only
    cases hs : fwStep s c with
    | ok y =>
      obtain ⟨s1, o⟩ := y
      cases o with
      | none => simp only; exact h s1 none b1 hs (fun _ => rfl) (by simp)
      | some p =>
        simp only
        generalize hp : InBuf.set_position p b1 = z
        obtain ⟨z, b2⟩ := z
        cases z with
        | ok _ => simp only; exact h s1 (some p) b2 hs (by simp) (fun q hq => by cases hq; exact hp)
        | err => grind
        | panic => grind
    | err => grind
    | panic => grind
  · rw [if_neg hc, dif_neg hc]

theorem both_done (len k : Nat) {s : Fw} (b : InBuf) (h : s.done = true) : fwLoopIn len k s b = fwLoop len s b := by
  rw [fwLoop, fwLoopIn.eq_def]
  simp [h]

theorem read_at {data : List UInt8} {p : Nat} {c : UInt8} (h : data[p]? = some c) : InBuf.read_u8 ⟨data, p⟩ = (.ok c, ⟨data, p + 1⟩) := by
  obtain ⟨hp, rfl⟩ := List.getElem?_eq_some_iff.mp h
  simp [InBuf.read_u8, InBuf.len, hp, idx]

/-- the octets of a label -/
theorem both_label (len k : Nat) {data : List UInt8} (l : Label) {p : Nat} {s : Fw} (hs : s.state = .Ordinary) (hn : s.n = l.length) (hl : 1 ≤ l.length)
    (h : ∀ i (h : i < l.length), data[p + i]? = some l[i])
    (hk : ∀ s' : Fw, s'.state = .Start → fwLoopIn len k s' ⟨data, p + l.length⟩ = fwLoop len s' ⟨data, p + l.length⟩) :
    fwLoopIn len (l.length + k) s ⟨data, p⟩ = fwLoop len s ⟨data, p⟩ := by
  induction l generalizing p s with
  | nil => simp at hl
  | cons c l ih =>
    rw [List.length_cons, show l.length + 1 + k = (l.length + k) + 1 by omega]
    have h0 := h 0 (by simp)
    refine both_step (read_at (p := p) (by simpa using h0)) ?_
    intro s1 o b2 hst h1 h2
    unfold fwStep at hst
    simp only [hs, hn, List.length_cons, Nat.add_one_ne_zero, if_false, Nat.add_sub_cancel, Res.ok.injEq, Prod.mk.injEq] at hst
    obtain ⟨rfl, rfl⟩ := hst
    rw [h1 rfl]
    cases l with
    | nil => simpa using hk _ (by simp)
    | cons d l =>
      refine ih (p := p + 1) (by simp) (by simp) (by simp) (fun i hi => ?_) (fun s' hs' => ?_)
      · have := h (i + 1) (by simpa using hi)
        rw [show p + (i + 1) = p + 1 + i by omega] at this
        simpa using this
      · have := hk s' hs'
        rwa [List.length_cons, show p + (((d :: l).length) + 1) = p + 1 + (d :: l).length by omega] at this

/-- rounds enough for a name: two for each pointer -/
theorem both_straight (len : Nat) {data : List UInt8} {p : Nat} {ls : List Label} (h : Straight (fun i => data[i]?) p ls) :
    ∀ (s : Fw), s.state = .Start →
      (∀ k, (nameWire ls).length + 2 * ls.length ≤ k → fwLoopIn len k s ⟨data, p⟩ = fwLoop len s ⟨data, p⟩) ∧
      (∀ c, data[p]? = some c → c.toNat ≤ 63 → ∀ k, (nameWire ls).length + 2 * (ls.length - 1) ≤ k → fwLoopIn len k s ⟨data, p⟩ = fwLoop len s ⟨data, p⟩) := by
  induction h with
  | @root p h0 =>
    intro s hs
    have key : ∀ k, 1 ≤ k → fwLoopIn len k s ⟨data, p⟩ = fwLoop len s ⟨data, p⟩ := by
      intro k hk
      obtain ⟨k, rfl⟩ : ∃ j, k = j + 1 := ⟨k - 1, by omega⟩
      refine both_step (read_at h0) ?_
      intro s1 o b2 hst h1 h2
      unfold fwStep at hst
      simp only [hs] at hst
      rw [if_pos (by decide)] at hst
      split at hst
      · simp only [Res.ok.injEq, Prod.mk.injEq] at hst
        obtain ⟨rfl, rfl⟩ := hst
        exact both_done _ _ _ (by simp)
      · simp at hst
    exact ⟨fun k hk => key k (by simp [nameWire] at hk; omega), fun _ _ _ k hk => key k (by simp [nameWire] at hk; omega)⟩
  | @label p l ls h1 h2 h3 h4 _ ih =>
    intro s hs
    have hw : (nameWire (l :: ls)).length = 1 + l.length + (nameWire ls).length := by simp [nameWire, wire, labelWire]; omega
    have key : ∀ k, (nameWire (l :: ls)).length + 2 * ls.length ≤ k → fwLoopIn len k s ⟨data, p⟩ = fwLoop len s ⟨data, p⟩ := by
      intro k hk
      obtain ⟨k, rfl⟩ : ∃ j, k = (l.length + j) + 1 := ⟨k - l.length - 1, by omega⟩
      have ht : (UInt8.ofNat l.length).toNat = l.length := toNat_ofNat8 (by omega)
      refine both_step (read_at h3) ?_
      intro s1 o b2 hst g1 g2
      unfold fwStep at hst
      simp only [hs, ht] at hst
      rw [if_pos (by simpa [MAX_LABEL_LEN] using h2)] at hst
      split at hst
      · simp only [Res.ok.injEq, Prod.mk.injEq] at hst
        obtain ⟨rfl, rfl⟩ := hst
        rw [g1 rfl]
        exact both_label len k l rfl rfl h1 h4 fun s' hs' => (ih s' hs').1 k (by omega)
      · simp at hst
    exact ⟨fun k hk => key k (by simp only [List.length_cons] at hk; omega), fun _ _ _ k hk => key k (by simpa using hk)⟩
  | @pointer p t c ls h1 h2 h3 h4 h5 h6 h7 h8 ih =>
    intro s hs
    have hhi : (UInt8.ofNat (192 + t / 256)).toNat = 192 + t / 256 := toNat_ofNat8 (by omega)
    have hlo : (UInt8.ofNat (t % 256)).toNat = t % 256 := toNat_ofNat8 (by omega)
    refine ⟨fun k hk => ?_, fun c' hc' hle => ?_⟩
    · have hpos : 1 ≤ ls.length := by
        cases h8 with
        | root h => exfalso; rw [h] at h5; cases h5; simp at h6
        | label => simp
        | pointer h _ _ _ _ _ _ _ => 
          exfalso
          rw [h] at h5
          have := Option.some.inj h5
          rw [← this, toNat_ofNat8 (by omega)] at h7
          omega
      obtain ⟨k, rfl⟩ : ∃ j, k = (j + 1) + 1 := ⟨k - 2, by omega⟩
      have hm : UInt8.ofNat (192 + t / 256) &&& 0xc0 = 0xc0 := (R53.mark_iff _).mpr (by omega)
      refine both_step (read_at h1) ?_
      intro s1 o b2 hst g1 g2
      unfold fwStep at hst
      simp only [hs, hhi] at hst
      rw [if_neg (by simp only [MAX_LABEL_LEN]; omega), if_pos hm] at hst
      simp only [Res.ok.injEq, Prod.mk.injEq] at hst
      obtain ⟨rfl, rfl⟩ := hst
      rw [g1 rfl]
      have ht : ((UInt8.ofNat (192 + t / 256)) &&& ~~~ 0xc0).toNat * 256 + (UInt8.ofNat (t % 256)).toNat = t := by
        have := R53.mark_value (UInt8.ofNat (192 + t / 256)) (by omega)
        simp only [COMPRESS_POINTER_MARK8] at this
        rw [this, hhi, hlo]; omega
      refine both_step (read_at h2) ?_
      intro s2 o b3 hst g3 g4
      unfold fwStep at hst
      simp only [ht, Nat.one_ne_zero, if_false, Nat.sub_self, ne_eq, not_true_eq_false] at hst
      split at hst
      · simp only [Res.ok.injEq, Prod.mk.injEq] at hst
        obtain ⟨rfl, rfl⟩ := hst
        have g5 := g4 t rfl
        unfold InBuf.set_position at g5
        split at g5
        · simp only [Prod.mk.injEq, true_and] at g5
          subst g5
          exact (ih _ rfl).2 c h5 h7 k (by omega)
        · simp at g5
      · simp at hst
    · rw [h1] at hc'
      have := Option.some.inj hc'
      rw [← this, hhi] at hle
      omega

end Name

/-- reading such a name takes one round for each octet of its wire form and two for each label at most -/
theorem Straight.read {data : List UInt8} {p : Nat} {ls : List Label} (h : Straight (fun i => data[i]?) p ls) {k : Nat}
    (hk : (nameWire ls).length + 2 * ls.length ≤ k) : Name.from_wire_in k ⟨data, p⟩ = Name.from_wire ⟨data, p⟩ := by
  unfold Name.from_wire_in Name.from_wire
  simp only
  rw [(Name.both_straight _ h _ rfl).1 k hk]
  generalize Name.fwLoop _ _ _ = x
  obtain ⟨x, b1⟩ := x
  cases x <;> rfl

end R53
