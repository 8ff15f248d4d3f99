import Verif.Proofs.Header
/-!
# Decoders that cannot panic

`Safe s rd Q`: from any buffer whose position lies inside the data, `rd` either succeeds, moving the position forward inside
the data, and with `Q start value end`; or it fails, leaving the data alone. With `s` it depends on nothing behind its final
position; without, appending octets to the data makes no difference (a compression pointer may lead to labels that run
past the final position).
-/
namespace R53

/-- the octets a result may depend on -/
def region (s : Bool) (d : List UInt8) (e : Nat) : List UInt8 := if s then d.take e else d

def Safe {α : Type} (s : Bool) (rd : St InBuf α) (Q : Nat → α → Nat → Prop) : Prop :=
  ∀ b : InBuf, b.pos ≤ b.data.length →
    (∃ a e, rd b = (.ok a, ⟨b.data, e⟩) ∧ b.pos ≤ e ∧ e ≤ b.data.length ∧ Reads (memOf (region s b.data e)) b.pos rd a e ∧ Q b.pos a e) ∨
    (∃ b', rd b = (.err, b') ∧ b'.data = b.data)

theorem memOf_take_le (d : List UInt8) (e : Nat) : (memOf (d.take e)).le (memOf d) := by
  intro i c h
  unfold memOf at *
  rw [List.getElem?_take] at h
  split at h <;> simp_all

theorem memOf_take_mono (d : List UInt8) {e e' : Nat} (h : e ≤ e') : (memOf (d.take e)).le (memOf (d.take e')) := by
  intro i c hi
  unfold memOf at *
  rw [List.getElem?_take] at *
  split at hi
  · rw [if_pos (by omega)]; exact hi
  · simp at hi

/-- a message that has the first `e` octets of `d` -/
theorem take_le_memOf {d msg : List UInt8} {e : Nat} (he : e ≤ d.length) (h : (memOf (d.take e)).le (memOf msg)) :
    e ≤ msg.length ∧ msg.take e = d.take e := by
  have hl : (d.take e).length = e := by simp; omega
  have key : ∀ i, i < e → msg[i]? = (d.take e)[i]? := by
    intro i hi
    have : (d.take e)[i]? = some (d.take e)[i] := List.getElem?_eq_getElem (by omega)
    rw [this]; exact h i _ this
  have hlen : e ≤ msg.length := by
    rcases Nat.eq_zero_or_pos e with h0 | h0
    · omega
    · have := key (e - 1) (by omega)
      rw [List.getElem?_eq_getElem (by omega : e - 1 < (d.take e).length)] at this
      have := (List.getElem?_eq_some_iff.mp this).1
      omega
  refine ⟨hlen, ?_⟩
  apply List.ext_getElem?
  intro i
  by_cases hi : i < e
  · rw [List.getElem?_take, if_pos hi, key i hi]
  · rw [List.getElem?_eq_none (by simp; omega), List.getElem?_eq_none (by simp; omega)]

theorem region_mono (s : Bool) (d : List UInt8) {e e' : Nat} (h : e ≤ e') : (memOf (region s d e)).le (memOf (region s d e')) := by
  cases s
  · exact Mem.le_refl _
  · exact memOf_take_mono d h

theorem region_take (s : Bool) (d : List UInt8) (e : Nat) : (memOf (d.take e)).le (memOf (region s d e)) := by
  cases s
  · exact memOf_take_le d e
  · exact Mem.le_refl _

theorem region_len {s : Bool} {d msg : List UInt8} {e : Nat} (he : e ≤ d.length) (h : (memOf (region s d e)).le (memOf msg)) :
    e ≤ msg.length :=
  (take_le_memOf he (Mem.le_trans (region_take s d e) h)).1

namespace Safe
variable {α β : Type} {s : Bool}

theorem mono {rd : St InBuf α} {Q Q' : Nat → α → Nat → Prop} (h : Safe s rd Q) (hq : ∀ p a e, p ≤ e → Q p a e → Q' p a e) : Safe s rd Q' := by
  intro b hb
  rcases h b hb with ⟨a, e, h1, h2, h3, h4, h5⟩ | h
  · exact Or.inl ⟨a, e, h1, h2, h3, h4, hq _ _ _ h2 h5⟩
  · exact Or.inr h

theorem bind {rd : St InBuf α} {f : α → St InBuf β} {Q : Nat → α → Nat → Prop} {R : Nat → β → Nat → Prop} (h : Safe s rd Q)
    (hf : ∀ p a m, p ≤ m → Q p a m → Safe s (f a) fun m' b e => m' = m → R p b e) : Safe s (rd >>= f) R := by
  intro b hb
  rcases h b hb with ⟨a, m, h1, h2, h3, h4, h5⟩ | ⟨b', h1, h2⟩
  · rcases hf b.pos a m h2 h5 ⟨b.data, m⟩ h3 with ⟨c, e, k1, k2, k3, k4, k5⟩ | ⟨b', k1, k2⟩
    · have k2' : m ≤ e := k2
      refine Or.inl ⟨c, e, by rw [St.bind_ok h1]; exact k1, Nat.le_trans h2 k2', k3, ?_, k5 rfl⟩
      refine (h4.le (region_mono s b.data k2')).bind k4 fun msg hm _ => ?_
      have := region_len (by exact k3) hm
      omega
    · exact Or.inr ⟨b', by rw [St.bind_ok h1]; exact k1, k2⟩
  · exact Or.inr ⟨b', by rw [St.bind_err h1], h2⟩

theorem pure {a : α} {Q : Nat → α → Nat → Prop} (h : ∀ p, Q p a p) : Safe s (Pure.pure a) Q := by
  intro b hb
  exact Or.inl ⟨a, b.pos, rfl, Nat.le_refl _, hb, Reads.pure a, h _⟩

theorem fail {Q : Nat → α → Nat → Prop} : Safe s (St.fail) Q := fun b _ => Or.inr ⟨b, rfl, rfl⟩

/-- a checked condition -/
theorem ensure {c : Prop} [Decidable c] {Q : Nat → Unit → Nat → Prop} (h : ∀ p, c → Q p () p) : Safe s (St.lift (R53.ensure c)) Q := by
  by_cases hc : c
  · intro b hb
    have : ∀ s : InBuf, (St.lift (R53.ensure c) : St InBuf Unit) s = (.ok (), s) := fun s => by simp [R53.ensure, hc]
    exact Or.inl ⟨(), b.pos, this b, Nat.le_refl _, hb, fun msg _ _ => this _, h _ hc⟩
  · intro b hb
    exact Or.inr ⟨b, by simp [R53.ensure, hc], rfl⟩

theorem lift_ok {r : Res α} {a : α} {Q : Nat → α → Nat → Prop} (hr : r = .ok a) (h : ∀ p, Q p a p) : Safe s (St.lift r) Q := by
  rw [hr]
  exact Safe.pure h

end Safe

/-! ## the basic readers -/

theorem reads_drop {α : Type} {s : Bool} {rd : St InBuf α} {a : α} {d : List UInt8} {p n : Nat} (hle : p + n ≤ d.length)
    (h : ∀ msg, (∀ i, i < n → msg[p + i]? = d[p + i]?) → (msg.drop p).take n = (d.drop p).take n → p + n ≤ msg.length →
      rd ⟨msg, p⟩ = (.ok a, ⟨msg, p + n⟩)) : Reads (memOf (region s d (p + n))) p rd a (p + n) := by
  intro msg hm hp
  obtain ⟨h1, h2⟩ := take_le_memOf hle (Mem.le_trans (region_take s d _) hm)
  have h3 : (msg.drop p).take n = (d.drop p).take n := by
    have := congrArg (List.drop p) h2
    rw [List.drop_take, List.drop_take] at this
    simpa using this
  refine h msg (fun i hi => ?_) h3 h1
  have := congrArg (·[i]?) h3
  simpa [List.getElem?_take, hi] using this

theorem getElem!_congr {d d' : List UInt8} {i : Nat} (h : d[i]? = d'[i]?) : d[i]! = d'[i]! := by
  rw [List.getElem!_eq_getElem?_getD, List.getElem!_eq_getElem?_getD, h]

theorem safe_u8 {s : Bool} : Safe s InBuf.read_u8 fun p _ e => e = p + 1 := by
  intro b hb
  rw [InBuf.read_u8_eq]
  by_cases h : b.pos < b.data.length
  · left
    have hx : b.data[b.pos]? = some b.data[b.pos] := List.getElem?_eq_getElem h
    refine ⟨b.data[b.pos], b.pos + 1, by rw [hx], by omega, by omega, ?_, rfl⟩
    apply reads_drop (by omega)
    intro msg hm _ _
    rw [InBuf.read_u8_eq]
    have := hm 0 (by omega)
    simp only [Nat.add_zero, hx] at this
    simp [this]
  · right
    exact ⟨b, by rw [List.getElem?_eq_none (by omega)], rfl⟩

theorem safe_u16 {s : Bool} : Safe s InBuf.read_u16 fun p _ e => e = p + 2 := by
  intro b hb
  rw [InBuf.read_u16_eq]
  by_cases h : b.pos + 2 ≤ b.data.length
  · left
    rw [if_pos h]
    refine ⟨_, b.pos + 2, rfl, by omega, by omega, ?_, rfl⟩
    apply reads_drop h
    intro msg hm _ hl
    rw [InBuf.read_u16_eq, if_pos (by exact hl)]
    have h0 := hm 0 (by omega)
    have h1 := hm 1 (by omega)
    simp only [Nat.add_zero] at h0
    simp only [getElem!_congr h0, getElem!_congr h1]
  · right
    exact ⟨b, by rw [if_neg h], rfl⟩

theorem safe_u32 {s : Bool} : Safe s InBuf.read_u32 fun p _ e => e = p + 4 := by
  intro b hb
  rw [InBuf.read_u32_eq]
  by_cases h : b.pos + 4 ≤ b.data.length
  · left
    rw [if_pos h]
    refine ⟨_, b.pos + 4, rfl, by omega, by omega, ?_, rfl⟩
    apply reads_drop h
    intro msg hm _ hl
    rw [InBuf.read_u32_eq, if_pos (by exact hl)]
    have h0 := hm 0 (by omega)
    have h1 := hm 1 (by omega)
    have h2 := hm 2 (by omega)
    have h3 := hm 3 (by omega)
    simp only [Nat.add_zero] at h0
    simp only [getElem!_congr h0, getElem!_congr h1, getElem!_congr h2, getElem!_congr h3]
  · right
    exact ⟨b, by rw [if_neg h], rfl⟩

theorem safe_bytes {s : Bool} (n : Nat) : Safe s (InBuf.read_bytes n) fun p d e => e = p + n ∧ d.length = n := by
  intro b hb
  rw [InBuf.read_bytes_eq]
  by_cases h : b.pos + n ≤ b.data.length
  · left
    rw [if_pos h]
    refine ⟨_, b.pos + n, rfl, by omega, by omega, ?_, rfl, by simp; omega⟩
    apply reads_drop h
    intro msg _ hm hl
    rw [InBuf.read_bytes_eq, if_pos (by exact hl), hm]
  · right
    exact ⟨b, by rw [if_neg h], rfl⟩

/-! ## names -/

theorem Decodes.bound {msg : List UInt8} {limit pos : Nat} {ls : List Label} {e : Nat} (h : Decodes msg limit pos ls e) :
    pos + 1 ≤ e ∧ e ≤ msg.length ∧ e ≤ pos + (nameWire ls).length + 1 := by
  induction h with
  | root h =>
    have := (List.getElem?_eq_some_iff.mp h).1
    exact ⟨by omega, by omega, by omega⟩
  | @label limit pos e l ls len h1 h2 h3 h4 h5 h6 ih =>
    refine ⟨by omega, ih.2.1, ?_⟩
    have : (nameWire (l :: ls)).length = 1 + l.length + (nameWire ls).length := by
      simp [nameWire]; omega
    omega
  | @pointer limit pos ls e' hi lo h1 h2 h3 h4 h5 ih =>
    have := (List.getElem?_eq_some_iff.mp h3).1
    have : 1 ≤ (nameWire ls).length := by simp [nameWire]
    exact ⟨by omega, by omega, by omega⟩

theorem Decodes.append {msg msg' : List UInt8} {limit pos : Nat} {ls : List Label} {e : Nat} (h : Decodes msg limit pos ls e)
    (hm : (memOf msg).le (memOf msg')) : Decodes msg' limit pos ls e := by
  induction h with
  | root h => exact .root (hm _ _ h)
  | @label limit pos e l ls len h1 h2 h3 h4 h5 h6 ih =>
    refine .label len (hm _ _ h1) h2 h3 h4 ?_ ih
    rw [← h4]
    apply drop_take_eq
    intro i hi
    apply hm
    have : ((msg.drop (pos + 1)).take len.toNat)[i]? = some l[i] := by rw [h5]; exact List.getElem?_eq_getElem hi
    rw [List.getElem?_take, if_pos (by omega), List.getElem?_drop] at this
    exact this
  | @pointer limit pos ls e' hi lo h1 h2 h3 h4 h5 ih => exact .pointer hi lo (hm _ _ h1) h2 (hm _ _ h3) h4 ih

theorem safe_name : Safe false Name.from_wire fun p n e => n.WF ∧ p < e ∧ e ≤ p + 256 := by
  intro b hb
  rcases Name.from_wire_spec b with ⟨ls, e, h1, h2, h3⟩ | ⟨_, h2, h3⟩
  · have hb' := Decodes.bound h1
    have := h2.2
    refine Or.inl ⟨_, e, h3, by omega, by omega, ?_, ⟨ls, h2, rfl⟩, by omega, by omega⟩
    intro msg hm _
    exact Name.from_wire_decodes (b := ⟨msg, b.pos⟩) (h1.append hm) h2.2
  · right
    refine ⟨(Name.from_wire b).2, ?_, h3⟩
    rw [← h2]

theorem safe_rrtype {s : Bool} : Safe s RRType.from_wire fun p t e => e = p + 2 ∧ t.Canonical :=
  Safe.bind safe_u16 fun p v m _ h => Safe.pure fun q hq => ⟨by omega, RRType.new_canonical v⟩

theorem safe_rrclass {s : Bool} : Safe s RRClass.from_wire fun p t e => e = p + 2 ∧ t.Canonical :=
  Safe.bind safe_u16 fun p v m _ h => Safe.pure fun q hq => ⟨by omega, RRClass.new_canonical v⟩

theorem safe_question : Safe false Question.from_wire fun p q e => p < e ∧ q.name.WF ∧ q.typ.Canonical ∧ q.class_.Canonical :=
  Safe.bind safe_name fun p n m _ h => Safe.bind safe_rrtype fun p2 t m2 _ h2 => Safe.bind safe_rrclass fun p3 c m3 _ h3 =>
    Safe.pure fun q hq h4 h5 => ⟨by omega, h.1, h2.2, h3.2⟩

theorem safe_header : Safe true Header.from_wire fun p _ e => e = p + 12 := by
  unfold Header.from_wire
  refine Safe.bind safe_u16 fun p _ m _ h => Safe.bind safe_u16 fun _ _ m2 _ h2 => Safe.bind safe_u16 fun _ _ m3 _ h3 =>
    Safe.bind safe_u16 fun _ _ m4 _ h4 => Safe.bind safe_u16 fun _ _ m5 _ h5 => Safe.bind safe_u16 fun _ _ m6 _ h6 =>
    Safe.pure fun q h7 h8 h9 h10 h11 h12 => by omega

/-- the weaker form -/
theorem Safe.weak {α : Type} {s : Bool} {rd : St InBuf α} {Q : Nat → α → Nat → Prop} (h : Safe s rd Q) : Safe false rd Q := by
  intro b hb
  rcases h b hb with ⟨a, e, h1, h2, h3, h4, h5⟩ | h
  · refine Or.inl ⟨a, e, h1, h2, h3, h4.le ?_, h5⟩
    cases s
    · exact Mem.le_refl _
    · exact memOf_take_le _ _
  · exact Or.inr h

end R53
