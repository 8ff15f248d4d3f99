import Verif.Proofs.NameWire2
import Verif.Proofs.Buffer
/-!
# Partial views of a message

`Mem` records the octets of a message that will not change any more. Decoding facts are stated about a `Mem`, so
they survive later appends and patches of other octets.
-/
namespace R53

abbrev Mem := Nat → Option UInt8

def Mem.le (g g' : Mem) : Prop := ∀ i c, g i = some c → g' i = some c

theorem Mem.le_refl (g : Mem) : g.le g := fun _ _ h => h
theorem Mem.le_trans {a b c : Mem} (h1 : a.le b) (h2 : b.le c) : a.le c := fun i x h => h2 i x (h1 i x h)

def memOf (d : List UInt8) : Mem := fun i => d[i]?

/-- the octets `d` recorded at `p` -/
def Mem.ext (g : Mem) (p : Nat) (d : List UInt8) : Mem := fun i => if p ≤ i ∧ i < p + d.length then d[i - p]? else g i

theorem Mem.ext_get (g : Mem) (p : Nat) (d : List UInt8) (i : Nat) (h : i < d.length) : g.ext p d (p + i) = some d[i] := by
  unfold Mem.ext
  rw [if_pos ⟨by omega, by omega⟩, Nat.add_sub_cancel_left, List.getElem?_eq_getElem h]

theorem Mem.ext_lt (g : Mem) (p : Nat) (d : List UInt8) (i : Nat) (h : i < p) : g.ext p d i = g i := by
  unfold Mem.ext; rw [if_neg (by omega)]

theorem Mem.ext_ge (g : Mem) (p : Nat) (d : List UInt8) (i : Nat) (h : p + d.length ≤ i) : g.ext p d i = g i := by
  unfold Mem.ext; rw [if_neg (by omega)]

/-- recording octets past the recorded ones -/
theorem Mem.le_ext {g : Mem} {c : List UInt8} (h : g.le (memOf c)) (d : List UInt8) : g.le (g.ext c.length d) := by
  intro i x hx
  have := h i x hx
  have hi : i < c.length := (List.getElem?_eq_some_iff.mp this).1
  rw [Mem.ext_lt _ _ _ _ hi]; exact hx

theorem Mem.ext_le {g : Mem} {c : List UInt8} (h : g.le (memOf c)) (d : List UInt8) :
    (g.ext c.length d).le (memOf (c ++ d)) := by
  intro i x hx
  unfold Mem.ext at hx
  split at hx
  · rename_i hi
    simp only [memOf]
    rw [List.getElem?_append_right hi.1]; exact hx
  · have := h i x hx
    have hi : i < c.length := (List.getElem?_eq_some_iff.mp this).1
    simp only [memOf] at this ⊢
    rw [List.getElem?_append_left hi]; exact this

theorem Mem.le_append {g : Mem} {c : List UInt8} (h : g.le (memOf c)) (d : List UInt8) : g.le (memOf (c ++ d)) := by
  intro i x hx
  have := h i x hx
  have hi : i < c.length := (List.getElem?_eq_some_iff.mp this).1
  simp only [memOf] at this ⊢
  rw [List.getElem?_append_left hi]; exact this

/-- `Decodes` on a partial view -/
inductive DecodesM (g : Mem) : (limit pos : Nat) → List Label → (e : Nat) → Prop
  | root {limit pos} : g pos = some 0 → DecodesM g limit pos [] (pos + 1)
  | label {limit pos e l ls} : ValidLabel l → g pos = some (UInt8.ofNat l.length) →
      (∀ i (h : i < l.length), g (pos + 1 + i) = some l[i]) →
      DecodesM g limit (pos + 1 + l.length) ls e → DecodesM g limit pos (l :: ls) e
  | pointer {limit pos ls e'} (hi lo : UInt8) : g pos = some hi → 192 ≤ hi.toNat →
      g (pos + 1) = some lo → (hi.toNat - 192) * 256 + lo.toNat < limit →
      DecodesM g ((hi.toNat - 192) * 256 + lo.toNat) ((hi.toNat - 192) * 256 + lo.toNat) ls e' →
      DecodesM g limit pos ls (pos + 2)

theorem DecodesM.le {g g' : Mem} (hg : g.le g') {limit pos : Nat} {ls : List Label} {e : Nat}
    (h : DecodesM g limit pos ls e) : DecodesM g' limit pos ls e := by
  induction h with
  | root h1 => exact .root (hg _ _ h1)
  | label h1 h2 h3 h4 ih => exact .label h1 (hg _ _ h2) (fun i hi => hg _ _ (h3 i hi)) ih
  | pointer hi lo h1 h2 h3 h4 h5 ih => exact .pointer hi lo (hg _ _ h1) h2 (hg _ _ h3) h4 ih

theorem DecodesM.mono {g : Mem} {limit limit' pos : Nat} {ls : List Label} {e : Nat}
    (h : DecodesM g limit pos ls e) (hl : limit ≤ limit') : DecodesM g limit' pos ls e := by
  induction h with
  | root h1 => exact .root h1
  | label h1 h2 h3 h4 ih => exact .label h1 h2 h3 (ih hl)
  | pointer hi lo h1 h2 h3 h4 h5 ih => exact .pointer hi lo h1 h2 h3 (by omega) h5

theorem DecodesM.valid {g : Mem} {limit pos : Nat} {ls : List Label} {e : Nat}
    (h : DecodesM g limit pos ls e) : ∀ l ∈ ls, ValidLabel l := by
  induction h with
  | root h1 => simp
  | label h1 h2 h3 h4 ih =>
    intro x hx
    rcases List.mem_cons.mp hx with rfl | hx
    · exact h1
    · exact ih x hx
  | pointer hi lo h1 h2 h3 h4 h5 ih => exact ih

/-- the labels recorded octet by octet, then what follows -/
theorem DecodesM.labels {g : Mem} {limit pos : Nat} {xs ls : List Label} {e : Nat} (hv : ∀ l ∈ xs, ValidLabel l)
    (hg : ∀ i (h : i < (wire xs).length), g (pos + i) = some (wire xs)[i])
    (h : DecodesM g limit (pos + (wire xs).length) ls e) : DecodesM g limit pos (xs ++ ls) e := by
  induction xs generalizing pos with
  | nil => simpa using h
  | cons x xs ih =>
    have hx := hv x (by simp)
    have hw : (wire (x :: xs)).length = x.length + 1 + (wire xs).length := wire_length_cons x xs
    refine .label hx ?_ ?_ ?_
    · have := hg 0 (by omega); simpa using this
    · intro i hi
      have := hg (1 + i) (by omega)
      rw [Nat.add_assoc, this]
      simp only [wire_cons, Nat.add_comm 1 i, List.getElem_cons_succ]
      rw [List.getElem_append_left hi]
    · refine ih (fun l hl => hv l (by simp [hl])) ?_ ?_
      · intro i hi
        have := hg (1 + x.length + i) (by omega)
        rw [show pos + 1 + x.length + i = pos + (1 + x.length + i) by omega, this]
        simp only [wire_cons, show 1 + x.length + i = (x.length + i) + 1 by omega, List.getElem_cons_succ]
        rw [List.getElem_append_right (by omega)]
        simp
      · rw [show pos + 1 + x.length + (wire xs).length = pos + (wire (x :: xs)).length by omega]; exact h

theorem drop_take_eq {l : List UInt8} {msg : List UInt8} {p : Nat}
    (h : ∀ i (h : i < l.length), msg[p + i]? = some l[i]) : (msg.drop p).take l.length = l := by
  apply List.ext_getElem?
  intro i
  by_cases hi : i < l.length
  · rw [List.getElem?_take_of_lt hi, List.getElem?_drop, h i hi, List.getElem?_eq_getElem hi]
  · rw [List.getElem?_eq_none (by simp; omega), List.getElem?_eq_none (by omega)]

theorem DecodesM.decodes {g : Mem} {msg : List UInt8} (hg : g.le (memOf msg)) {limit pos : Nat} {ls : List Label} {e : Nat}
    (h : DecodesM g limit pos ls e) : Decodes msg limit pos ls e := by
  induction h with
  | root h1 => exact .root (hg _ _ h1)
  | @label limit pos e l ls h1 h2 h3 h4 ih =>
    have hu := u8_len h1.2
    refine .label (UInt8.ofNat l.length) (hg _ _ h2) (by rw [hu]; exact h1.1) (by rw [hu]; exact h1.2) hu.symm ?_ (by rw [hu]; exact ih)
    rw [hu]
    exact drop_take_eq fun i hi => hg _ _ (h3 i hi)
  | pointer hi lo h1 h2 h3 h4 h5 ih => exact .pointer hi lo (hg _ _ h1) h2 (hg _ _ h3) h4 ih

end R53
