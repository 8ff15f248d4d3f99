import Verif.Props.NameWire
/-!
# C95: decoding a name takes few rounds

The loop of `Name.from_wire` (Model/Name: `fwLoop`) has no bound written down. Here is the same loop with one: it gives up, by a
panic, when the rounds are used up. With the number of rounds below it never does: whatever the octets, it ends as the loop
without the bound.
-/
namespace R53
namespace Name

/-- `fwLoop` with at most `k` rounds (name.rs:258-303, each round reads one octet) -/
def fwLoopIn (len : Nat) : Nat → Fw → InBuf → Res Fw × InBuf
  | k, s, b =>
    if s.current < len ∧ s.done = false ∧ s.brk = false then
      match k with
      | 0 => (.panic, b)
      | k + 1 =>
        match InBuf.read_u8 b with
        | (.ok c, b1) =>
          match fwStep s c with
          | .ok (s1, none) => fwLoopIn len k s1 b1
          | .ok (s1, some p) =>
            match InBuf.set_position p b1 with
            | (.ok _, b2) => fwLoopIn len k s1 b2
            | (.err, b2) => (.err, b2)
            | (.panic, b2) => (.panic, b2)
          | .err => (.err, b1)
          | .panic => (.panic, b1)
        | (.err, b1) => (.err, b1)
        | (.panic, b1) => (.panic, b1)
    else (.ok s, b)

/-- rounds that may still follow: one for each octet the name may still get, two for each pointer -/
def Fw.left (s : Fw) : Nat :=
  (match s.state with
    | .Start => 256 - s.nused
    | .Ordinary => s.n + (256 - s.nused)
    | .NewCurrent => 255 - s.nused) +
  2 * min s.biggest 16384

/-- what holds between two rounds -/
structure Fw.Good (s : Fw) : Prop where
  used : s.nused ≤ 255
  ptr : s.state = .NewCurrent → s.newCur < 64 ∧ s.n = 1

theorem fwStep_left {s s' : Fw} {c : UInt8} {o : Option Nat} (h : fwStep s c = .ok (s', o)) (hg : s.Good) : s'.left < s.left ∧ s'.Good := by
  obtain ⟨n, nused, cused, done, data, offsets, seen, state, current, biggest, newCur, brk⟩ := s
  obtain ⟨h1, h2⟩ := hg
  simp only at h1 h2
  have hc := c.toNat_lt
  have h64 : (c &&& ~~~ 0xc0).toNat < 64 := by
    have : ∀ i : Fin 256, (UInt8.ofNat i &&& ~~~ 0xc0).toNat < 64 := by decide +kernel
    have := this ⟨c.toNat, hc⟩
    rwa [UInt8.ofNat_toNat] at this
  unfold fwStep at h
  cases state with
  | Start =>
    simp only at h
    split at h
    · split at h
      · rename_i hle
        simp only [Res.ok.injEq, Prod.mk.injEq] at h
        obtain ⟨rfl, _⟩ := h
        simp only [MAX_WIRE_LEN] at hle
        refine ⟨?_, hle, by simp⟩
        simp only [Fw.left]
        omega
      · simp at h
    · split at h
      · simp only [Res.ok.injEq, Prod.mk.injEq] at h
        obtain ⟨rfl, _⟩ := h
        refine ⟨?_, h1, fun _ => ⟨h64, rfl⟩⟩
        simp only [Fw.left]
        omega
      · simp at h
  | Ordinary =>
    simp only at h
    split at h
    · simp at h
    · simp only [Res.ok.injEq, Prod.mk.injEq] at h
      obtain ⟨rfl, _⟩ := h
      refine ⟨?_, h1, ?_⟩
      · simp only [Fw.left]
        by_cases h0 : n - 1 = 0
        · simp only [if_pos h0]; omega
        · simp only [if_neg h0]; omega
      · by_cases h0 : n - 1 = 0 <;> simp [h0]
  | NewCurrent =>
    obtain ⟨h3, rfl⟩ := h2 rfl
    simp only at h
    split at h
    · omega
    · split at h
      · omega
      · split at h
        · rename_i hlt
          simp only [Res.ok.injEq, Prod.mk.injEq] at h
          obtain ⟨rfl, _⟩ := h
          refine ⟨?_, h1, by simp⟩
          simp only [Fw.left]
          omega
        · simp at h

theorem fwLoopIn_eq (len k : Nat) (s : Fw) (b : InBuf) (hg : s.Good) (hk : s.left + 1 ≤ k) : fwLoopIn len k s b = fwLoop len s b := by
  induction k generalizing s b with
  | zero => omega
  | succ k ih =>
    rw [fwLoop, fwLoopIn]
    by_cases hc : s.current < len ∧ s.done = false ∧ s.brk = false
    · rw [if_pos hc, dif_pos hc]
      generalize InBuf.read_u8 b = x
      obtain ⟨x, b1⟩ := x
      cases x with
      | ok c =>
        simp only
        cases hs : fwStep s c with
        | ok y =>
          obtain ⟨s1, o⟩ := y
          obtain ⟨hl, hg'⟩ := fwStep_left hs hg
          cases o with
          | none => simp only; rw [ih s1 b1 hg' (by omega)]
          | some p =>
            simp only
            generalize hp : InBuf.set_position p b1 = z
            obtain ⟨z, b2⟩ := z
            cases z with
            | ok _ => simp only; rw [ih s1 b2 hg' (by omega)]
            | err => grind
            | panic => grind
        | err => grind
        | panic => grind
      | err => rfl
      | panic => rfl
    · rw [if_neg hc, dif_neg hc]

/-- `Name.from_wire` (name.rs:244-308) with at most `k` rounds of its loop -/
def from_wire_in (k : Nat) : St InBuf Name := fun b =>
  let s : Fw := ⟨0, 0, 0, false, [], [], false, .Start, b.position, b.position, 0, false⟩
  match fwLoopIn b.len k s b with
  | (.ok s', b1) =>
    if s'.done then
      match InBuf.set_position (b.position + s'.cused) b1 with
      | (.ok _, b2) => (.ok ⟨s'.data, s'.offsets⟩, b2)
      | (.err, b2) => (.err, b2)
      | (.panic, b2) => (.panic, b2)
    else (.err, b1)
  | (.err, b1) => (.err, b1)
  | (.panic, b1) => (.panic, b1)

end Name

/-- whatever the octets, a name at position `p` is decoded, or refused, within `257 + 2 · min p 16384` rounds, each of which reads one
octet -/
theorem c95_name (b : InBuf) (k : Nat) (hk : 257 + 2 * min b.position 16384 ≤ k) : Name.from_wire_in k b = Name.from_wire b := by
  unfold Name.from_wire_in Name.from_wire
  simp only
  rw [Name.fwLoopIn_eq _ _ _ _ ⟨by simp, by simp⟩ (by simp only [Name.Fw.left]; omega)]
  generalize Name.fwLoop b.len _ b = x
  obtain ⟨x, b1⟩ := x
  cases x <;> rfl

/-- so never in more than 33025 rounds -/
theorem c95_any (b : InBuf) : Name.from_wire_in 33025 b = Name.from_wire b := c95_name b _ (by omega)

/-! The pointers of a name are not otherwise limited: their number can grow with the position. -/

/-- the root at 0, and at 1, 3, 5, … pointers, each to the one before -/
def ladder (k : Nat) : List UInt8 :=
  0 :: (List.range k).flatMap fun i => [UInt8.ofNat (192 + (2 * i - 1) / 256), UInt8.ofNat ((2 * i - 1) % 256)]

theorem ladder_succ (k : Nat) : ladder (k + 1) = ladder k ++ [UInt8.ofNat (192 + (2 * k - 1) / 256), UInt8.ofNat ((2 * k - 1) % 256)] := by
  simp [ladder, List.range_succ]

theorem ladder_length (k : Nat) : (ladder k).length = 2 * k + 1 := by
  induction k with
  | zero => rfl
  | succ k ih => rw [ladder_succ, List.length_append, ih]; simp only [List.length_cons, List.length_nil]; omega

theorem ladder_getElem (k i : Nat) (h : i < k) : (ladder k)[2 * i + 1]? = some (UInt8.ofNat (192 + (2 * i - 1) / 256)) ∧
    (ladder k)[2 * i + 2]? = some (UInt8.ofNat ((2 * i - 1) % 256)) := by
  induction k with
  | zero => omega
  | succ k ih =>
    have hl := ladder_length k
    rw [ladder_succ]
    by_cases hik : i < k
    · rw [List.getElem?_append_left (by omega), List.getElem?_append_left (by omega)]
      exact ih hik
    · have : i = k := by omega
      subst this
      rw [List.getElem?_append_right (by omega), List.getElem?_append_right (by omega), hl,
        show 2 * i + 1 - (2 * i + 1) = 0 by omega, show 2 * i + 2 - (2 * i + 1) = 1 by omega]
      simp

theorem pointer_octet (t : Nat) (h : t < 16384) : ¬ (UInt8.ofNat (192 + t / 256)).toNat ≤ MAX_LABEL_LEN ∧
    UInt8.ofNat (192 + t / 256) &&& 0xc0 = 0xc0 ∧ (UInt8.ofNat (192 + t / 256) &&& ~~~ 0xc0).toNat = t / 256 := by
  have : ∀ i : Fin 64, ¬ (UInt8.ofNat (192 + i)).toNat ≤ MAX_LABEL_LEN ∧ UInt8.ofNat (192 + i) &&& 0xc0 = 0xc0 ∧ (UInt8.ofNat (192 + i) &&& ~~~ 0xc0).toNat = i := by
    decide +kernel
  exact this ⟨t / 256, by omega⟩

theorem read_u8_some {d : List UInt8} {p : Nat} {c : UInt8} (h : d[p]? = some c) : InBuf.read_u8 ⟨d, p⟩ = (.ok c, ⟨d, p + 1⟩) := by
  have hp : p < d.length := (List.getElem?_eq_some_iff.mp h).1
  unfold InBuf.read_u8
  rw [if_pos (show p < InBuf.len ⟨d, p⟩ from hp)]
  have : idx d p = .ok c := by unfold idx; rw [h]
  simp only [this]

/-- where rung `i` stands -/
def rung (i : Nat) : Nat := 2 * i - 1

theorem ladder_climb (k i : Nat) (hi : i ≤ k) (hk : k ≤ 8192) (s : Name.Fw) (hs : s.state = .Start) (hd : s.done = false) (hb : s.brk = false)
    (hc : s.current = rung i) (hbig : s.biggest = rung i) :
    (Name.fwLoopIn (ladder k).length (2 * i) s ⟨ladder k, rung i⟩).1 = .panic := by
  have hl := ladder_length k
  induction i generalizing s with
  | zero =>
    rw [Name.fwLoopIn, if_pos ⟨by rw [hc, hl]; simp [rung], hd, hb⟩]
  | succ i ih =>
    obtain ⟨g1, g2⟩ := ladder_getElem k i (by omega)
    obtain ⟨n, nused, cused, done, data, offsets, seen, state, current, biggest, newCur, brk⟩ := s
    simp only at hs hd hb hc hbig
    subst hs hd hb hc hbig
    obtain ⟨p1, p2, p3⟩ := pointer_octet (2 * i - 1) (by omega)
    have hr : rung (i + 1) = 2 * i + 1 := by unfold rung; omega
    rw [hr, show 2 * (i + 1) = 2 * i + 1 + 1 by omega, Name.fwLoopIn, if_pos ⟨by rw [hl]; simp only; omega, rfl, rfl⟩]
    simp only [read_u8_some g1]
    have e1 : Name.fwStep ⟨n, nused, cused, false, data, offsets, seen, .Start, 2 * i + 1, 2 * i + 1, newCur, false⟩ (UInt8.ofNat (192 + (2 * i - 1) / 256)) =
        .ok (⟨1, nused, if seen then cused else cused + 1, false, data, offsets, seen, .NewCurrent, 2 * i + 1 + 1, 2 * i + 1, (2 * i - 1) / 256, false⟩, none) := by
      unfold Name.fwStep
      simp only
      rw [if_neg p1, if_pos p2, p3]
    simp only [e1]
    rw [Name.fwLoopIn, if_pos ⟨by rw [hl]; simp only; omega, rfl, rfl⟩]
    simp only [read_u8_some g2]
    generalize (if seen then cused else cused + 1) = cu
    have e2 : Name.fwStep ⟨1, nused, cu, false, data, offsets, seen, .NewCurrent, 2 * i + 1 + 1, 2 * i + 1, (2 * i - 1) / 256, false⟩ (UInt8.ofNat ((2 * i - 1) % 256)) =
        .ok (⟨0, nused, if seen then cu else cu + 1, false, data, offsets, true, .Start, rung i, rung i, rung i, false⟩, some (rung i)) := by
      have hn : (2 * i - 1) / 256 * 256 + (UInt8.ofNat ((2 * i - 1) % 256)).toNat = rung i := by
        rw [UInt8.toNat_ofNat_of_lt' (by simp only [UInt8.size]; omega)]
        unfold rung; omega
      unfold Name.fwStep
      simp only [hn]
      rw [if_neg (by omega), if_neg (by omega), if_pos (by unfold rung; omega)]
    simp only [e2]
    have e3 : InBuf.set_position (rung i) ⟨ladder k, 2 * i + 2 + 1⟩ = (.ok (), ⟨ladder k, rung i⟩) := by
      unfold InBuf.set_position
      rw [if_pos (by show _ ≤ (ladder k).length; rw [hl]; unfold rung; omega)]
    simp only [e3]
    exact ih (by omega) _ rfl rfl rfl rfl rfl

theorem ladder_decodes (k i : Nat) (hi : i < k) (hk : k ≤ 8192) : Decodes (ladder k) (2 * i + 1) (2 * i + 1) [] (2 * i + 1 + 2) := by
  induction i with
  | zero =>
    obtain ⟨g1, g2⟩ := ladder_getElem k 0 hi
    exact .pointer _ _ g1 (by decide) g2 (by decide) (.root rfl)
  | succ i ih =>
    obtain ⟨g1, g2⟩ := ladder_getElem k (i + 1) hi
    have h1 : (UInt8.ofNat (192 + (2 * (i + 1) - 1) / 256)).toNat = 192 + (2 * (i + 1) - 1) / 256 := UInt8.toNat_ofNat_of_lt' (by simp only [UInt8.size]; omega)
    have h2 : (UInt8.ofNat ((2 * (i + 1) - 1) % 256)).toNat = (2 * (i + 1) - 1) % 256 := UInt8.toNat_ofNat_of_lt' (by simp only [UInt8.size]; omega)
    have e : ((UInt8.ofNat (192 + (2 * (i + 1) - 1) / 256)).toNat - 192) * 256 + (UInt8.ofNat ((2 * (i + 1) - 1) % 256)).toNat = 2 * i + 1 := by
      rw [h1, h2]; omega
    refine .pointer (e' := 2 * i + 1 + 2) _ _ g1 (by rw [h1]; omega) g2 (by rw [e]; omega) ?_
    rw [e]
    exact ih (by omega)

/-- and some names need nearly as many rounds: that of the last pointer of the ladder, at `2 k - 1`, more than `2 k` rounds, though all it
says is the root. The pointers of a name are limited by nothing but its position -/
theorem c95_long (k : Nat) (h1 : 1 ≤ k) (hk : k ≤ 8192) : (Name.from_wire_in (2 * k) ⟨ladder k, 2 * k - 1⟩).1 = .panic ∧
    Name.from_wire ⟨ladder k, 2 * k - 1⟩ = (.ok (Name.ofLabels []), ⟨ladder k, 2 * k + 1⟩) := by
  refine ⟨?_, ?_⟩
  · have := ladder_climb k k (Nat.le_refl _) hk ⟨0, 0, 0, false, [], [], false, .Start, rung k, rung k, 0, false⟩ rfl rfl rfl rfl rfl
    unfold Name.from_wire_in
    simp only
    generalize hx : Name.fwLoopIn _ (2 * k) _ _ = x
    have hx' : x.1 = .panic := by rw [← hx]; exact this
    obtain ⟨x, b1⟩ := x
    simp only at hx'
    subst hx'
    rfl
  · obtain ⟨j, rfl⟩ : ∃ j, k = j + 1 := ⟨k - 1, by omega⟩
    refine (Name.c02_from_wire_iff _ _ _).mpr ⟨[], ?_, by decide, rfl, rfl⟩
    exact ladder_decodes (j + 1) j (by omega) hk

example : Name.from_wire_in 33025 ⟨ladder 3, 5⟩ = Name.from_wire ⟨ladder 3, 5⟩ := c95_any _

end R53
