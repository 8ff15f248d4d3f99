import Verif.Proofs.Render3
/-!
# Writers matched with readers

`Reads g p rd a e`: whatever the rest of the message, reading at `p` gives `a` and stops at `e`, as long as the message
has the octets recorded in `g`. `Emits w rd a`: from any renderer, `w` either appends octets that `rd` reads back as `a`,
or fails leaving the earlier octets alone.
-/
namespace R53

def Reads {α : Type} (g : Mem) (p : Nat) (rd : St InBuf α) (a : α) (e : Nat) : Prop :=
  ∀ msg, g.le (memOf msg) → p ≤ msg.length → rd ⟨msg, p⟩ = (.ok a, ⟨msg, e⟩)

namespace Reads
variable {α β : Type} {g g' : Mem} {p q e : Nat}

theorem le {rd : St InBuf α} {a : α} (h : Reads g p rd a e) (hg : g.le g') : Reads g' p rd a e :=
  fun msg hm hp => h msg (Mem.le_trans hg hm) hp

theorem bind {m : St InBuf α} {f : α → St InBuf β} {a : α} {b : β} (h : Reads g p m a q) (h' : Reads g q (f a) b e)
    (hq : ∀ msg, g.le (memOf msg) → p ≤ msg.length → q ≤ msg.length) : Reads g p (m >>= f) b e := by
  intro msg hm hp
  rw [St.bind_ok (h msg hm hp)]; exact h' msg hm (hq msg hm hp)

theorem pure (a : α) : Reads g p (Pure.pure a : St InBuf α) a p := fun _ _ _ => rfl

/-- the reader post-processes -/
theorem map {m : St InBuf α} {f : α → St InBuf β} {a : α} {b : β} (h : Reads g p m a q) (hf : ∀ s, f a s = (.ok b, s)) :
    Reads g p (m >>= f) b q := by
  intro msg hm hp
  rw [St.bind_ok (h msg hm hp)]; exact hf _

end Reads

theorem Mem.ext_nil (g : Mem) (p : Nat) : g.ext p [] = g := by
  funext i; unfold Mem.ext; simp; omega

theorem Mem.ext_ext (g : Mem) (p : Nat) (a b : List UInt8) : (g.ext p a).ext (p + a.length) b = g.ext p (a ++ b) := by
  funext i
  unfold Mem.ext
  simp only [List.length_append]
  by_cases h1 : p + a.length ≤ i ∧ i < p + a.length + b.length
  · rw [if_pos h1, if_pos (by omega), List.getElem?_append_right (by omega)]
    congr 1; omega
  · rw [if_neg h1]
    by_cases h2 : p ≤ i ∧ i < p + a.length
    · rw [if_pos h2, if_pos (by omega), List.getElem?_append_left (by omega)]
    · rw [if_neg h2, if_neg (by omega)]

/-- the octets at `p` are exactly `d` -/
theorem Mem.ext_drop {g : Mem} {p : Nat} {d msg : List UInt8} (h : (g.ext p d).le (memOf msg)) :
    ∃ rest, msg.drop p = d ++ rest := by
  have : (msg.drop p).take d.length = d := drop_take_eq fun i hi => h _ _ (Mem.ext_get g p d i hi)
  refine ⟨(msg.drop p).drop d.length, ?_⟩
  have h2 := List.take_append_drop d.length (msg.drop p)
  rw [this] at h2; exact h2.symm

theorem Mem.ext_end {g : Mem} {p : Nat} {d msg : List UInt8} (h : (g.ext p d).le (memOf msg)) (hd : d ≠ []) :
    p + d.length ≤ msg.length := by
  have hl : 0 < d.length := List.length_pos_iff.mpr hd
  have := h _ _ (Mem.ext_get g p d (d.length - 1) (by omega))
  have := (List.getElem?_eq_some_iff.mp this).1
  omega

theorem Mem.ext_end' {g : Mem} {p : Nat} {d msg : List UInt8} (h : (g.ext p d).le (memOf msg)) (hp : p ≤ msg.length) :
    p + d.length ≤ msg.length := by
  by_cases hd : d = []
  · subst hd; simpa using hp
  · exact Mem.ext_end h hd

theorem OutBuf.append_nil {b : OutBuf} : b.append [] = b := by
  simp [OutBuf.append, overwrite, List.take_append_drop]

theorem OutBuf.append_len (b : OutBuf) (d : List UInt8) : (b.append d).len = b.len + d.length := rfl

/-- the renderer `r'` is `r` with `out` appended and recorded -/
structure Wrote (r r' : Render) (g : Mem) (out : List UInt8) : Prop where
  fit : r.buffer.len + out.length ≤ r.buffer.capacity
  buf : r'.buffer = r.buffer.append out
  inv : RInv r' (g.ext r.buffer.len out)

/-- a failed write: at most some octets were appended -/
structure Broke (r r' : Render) (g : Mem) : Prop where
  app : ∃ d, r.buffer.len + d.length ≤ r.buffer.capacity ∧ r'.buffer = r.buffer.append d
  inv : ∃ g', g.le g' ∧ RInv r' g'

namespace Wrote
variable {r r' r'' : Render} {g : Mem} {a b : List UInt8}

theorem len (h : Wrote r r' g a) : r'.buffer.len = r.buffer.len + a.length := by rw [h.buf]; rfl
theorem cap (h : Wrote r r' g a) : r'.buffer.capacity = r.buffer.capacity := by rw [h.buf, OutBuf.append_capacity h.fit]
theorem le (h : Wrote r r' g a) (hg : RInv r g) : g.le (g.ext r.buffer.len a) := by
  have := Mem.le_ext hg.mem a; rwa [OutBuf.contents_length hg.buf] at this
theorem data (h : Wrote r r' g a) : r'.data = r.data ++ a := by
  simp only [Render.data, h.buf]; exact OutBuf.append_contents h.fit

theorem nil (h : RInv r g) : Wrote r r g [] :=
  ⟨by simpa [OutBuf.Inv] using h.buf, by rw [OutBuf.append_nil], by rw [Mem.ext_nil]; exact h⟩

theorem trans (h : Wrote r r' g a) (h' : Wrote r' r'' (g.ext r.buffer.len a) b) : Wrote r r'' g (a ++ b) := by
  have h1 := h'.fit
  rw [h.len, h.cap] at h1
  refine ⟨by simp; omega, ?_, ?_⟩
  · rw [h'.buf, h.buf, OutBuf.append_append h1]
  · have := h'.inv
    rw [h.len, Mem.ext_ext] at this; exact this

theorem broke (h : Wrote r r' g a) (hg : RInv r g) : Broke r r' g :=
  ⟨⟨a, h.fit, h.buf⟩, ⟨_, h.le hg, h.inv⟩⟩

theorem transBroke (h : Wrote r r' g a) (hg : RInv r g) (h' : Broke r' r'' (g.ext r.buffer.len a)) : Broke r r'' g := by
  obtain ⟨⟨d, h1, h2⟩, g', h3, h4⟩ := h'
  rw [h.len, h.cap] at h1
  exact ⟨⟨a ++ d, by simp; omega, by rw [h2, h.buf, OutBuf.append_append h1]⟩, g', Mem.le_trans (h.le hg) h3, h4⟩

end Wrote

namespace Broke
variable {r r' : Render} {g : Mem}
theorem refl (h : RInv r g) : Broke r r g := ⟨⟨[], by simpa [OutBuf.Inv] using h.buf, by rw [OutBuf.append_nil]⟩, g, Mem.le_refl g, h⟩
theorem data (h : Broke r r' g) : ∃ d, r'.data = r.data ++ d := by
  obtain ⟨d, h1, h2⟩ := h.app
  exact ⟨d, by simp only [Render.data, h2]; exact OutBuf.append_contents h1⟩
theorem cap (h : Broke r r' g) : r'.buffer.capacity = r.buffer.capacity := by
  obtain ⟨d, h1, h2⟩ := h.app
  rw [h2, OutBuf.append_capacity h1]
theorem len (h : Broke r r' g) : r.buffer.len ≤ r'.buffer.len := by
  obtain ⟨d, h1, h2⟩ := h.app
  rw [h2]; simp [OutBuf.append]
end Broke

/-- writer `w` paired with what can be said of the appended octets -/
def EmitsP (w : St Render Unit) (P : Mem → Nat → List UInt8 → Prop) : Prop :=
  ∀ r g, RInv r g →
    (∃ r' out, w r = (.ok (), r') ∧ Wrote r r' g out ∧ P (g.ext r.buffer.len out) r.buffer.len out) ∨
    (∃ r', w r = (.err, r') ∧ Broke r r' g)

def Emits {α : Type} (w : St Render Unit) (rd : St InBuf α) (a : α) : Prop :=
  EmitsP w fun g p out => Reads g p rd a (p + out.length)

theorem EmitsP.mono {w : St Render Unit} {P Q : Mem → Nat → List UInt8 → Prop} (h : EmitsP w P)
    (hpq : ∀ g p out, P g p out → Q g p out) : EmitsP w Q := by
  intro r g hr
  rcases h r g hr with ⟨r', out, h1, h2, h3⟩ | h
  · exact Or.inl ⟨r', out, h1, h2, hpq _ _ _ h3⟩
  · exact Or.inr h

/-- two writers in sequence -/
theorem EmitsP.seq {w1 : St Render Unit} {w2 : St Render Unit} {P Q R : Mem → Nat → List UInt8 → Prop}
    (h1 : EmitsP w1 P) (h2 : EmitsP w2 Q)
    (hPQ : ∀ (g : Mem) (p : Nat) (a b : List UInt8), g.le ((g.ext p a).ext (p + a.length) b) → P (g.ext p a) p a →
      Q ((g.ext p a).ext (p + a.length) b) (p + a.length) b → (g.ext p a).le ((g.ext p a).ext (p + a.length) b) →
      R ((g.ext p a).ext (p + a.length) b) p (a ++ b)) :
    EmitsP (w1 >>= fun _ => w2) R := by
  intro r g hr
  rcases h1 r g hr with ⟨r1, a, e1, k1, p1⟩ | ⟨r1, e1, k1⟩
  · rcases h2 r1 _ k1.inv with ⟨r2, b, e2, k2, p2⟩ | ⟨r2, e2, k2⟩
    · refine Or.inl ⟨r2, a ++ b, by rw [St.bind_ok e1]; exact e2, k1.trans k2, ?_⟩
      have hle := k2.le k1.inv
      rw [k1.len] at p2 hle
      have := hPQ g r.buffer.len a b (Mem.le_trans (k1.le hr) hle) p1 p2 hle
      rwa [Mem.ext_ext] at this
    · exact Or.inr ⟨r2, by rw [St.bind_ok e1]; exact e2, k1.transBroke hr k2⟩
  · exact Or.inr ⟨r1, by rw [St.bind_err e1], k1⟩

namespace Emits
variable {α β : Type}

theorem bind {w1 w2 : St Render Unit} {rd1 : St InBuf α} {rd2 : α → St InBuf β} {a : α} {b : β}
    (h1 : Emits w1 rd1 a) (h2 : Emits w2 (rd2 a) b) : Emits (w1 >>= fun _ => w2) (rd1 >>= rd2) b :=
  EmitsP.seq h1 h2 fun g p x y hle h1 h2 hle' => by
    rw [List.length_append, ← Nat.add_assoc]
    exact (h1.le hle').bind h2 fun msg hm hp => Mem.ext_end' (Mem.le_trans hle' hm) hp

theorem pure (b : β) : Emits (Pure.pure ()) (Pure.pure b : St InBuf β) b := by
  intro r g hr
  exact Or.inl ⟨r, [], rfl, Wrote.nil hr, Reads.pure b⟩

/-- the reader post-processes -/
theorem map {w : St Render Unit} {rd : St InBuf α} {a : α} (h : Emits w rd a) {f : α → St InBuf β} {b : β}
    (hf : ∀ s, f a s = (.ok b, s)) : Emits w (rd >>= f) b :=
  EmitsP.mono h fun _ _ _ h => h.map hf

end Emits

/-- a writer that appends fixed octets -/
theorem EmitsP.octets {w : St Render Unit} {d : List UInt8}
    (hw : ∀ r, w r = if r.buffer.len + d.length ≤ r.buffer.capacity then (.ok (), { r with buffer := r.buffer.append d }) else (.err, r)) :
    EmitsP w fun g p out => out = d ∧ g.le (g.ext p d) ∧ (g.ext p d).le g := by
  intro r g hr
  rw [hw]
  by_cases hfit : r.buffer.len + d.length ≤ r.buffer.capacity
  · rw [if_pos hfit]
    obtain ⟨h1, h2, h3⟩ := Render.RInv.append hr hfit
    refine Or.inl ⟨_, d, rfl, ⟨hfit, rfl, h1⟩, rfl, ?_⟩
    have : (g.ext r.buffer.len d).ext r.buffer.len d = g.ext r.buffer.len d := by
      funext i; unfold Mem.ext; split <;> rfl
    rw [this]; exact ⟨Mem.le_refl _, Mem.le_refl _⟩
  · rw [if_neg hfit]
    exact Or.inr ⟨r, rfl, Broke.refl hr⟩

theorem emits_u8 (d : UInt8) : Emits (Render.write_u8 d) InBuf.read_u8 d := by
  refine EmitsP.mono (EmitsP.octets (d := [d]) (Render.write_u8_r d)) ?_
  rintro g p out ⟨rfl, -, h⟩ msg hm hp
  obtain ⟨rest, hr⟩ := Mem.ext_drop (Mem.le_trans h hm)
  have h0 := congrArg (·[0]?) hr
  simp at h0
  rw [InBuf.read_u8_eq]; simp [h0]

theorem emits_u16 (d : UInt16) : Emits (Render.write_u16 d) InBuf.read_u16 d := by
  refine EmitsP.mono (EmitsP.octets (d := be16 d) (fun r => by rw [Render.write_u16, Render.write_u16_r]; rfl)) ?_
  rintro g p out ⟨rfl, -, h⟩ msg hm hp
  obtain ⟨rest, hr⟩ := Mem.ext_drop (Mem.le_trans h hm)
  rw [InBuf.read_u16_be (by exact hr)]; rfl

theorem emits_u32 (d : UInt32) : Emits (Render.write_u32 d) InBuf.read_u32 d := by
  refine EmitsP.mono (EmitsP.octets (d := be32 d) (fun r => by rw [Render.write_u32, Render.write_u32_r])) ?_
  rintro g p out ⟨rfl, -, h⟩ msg hm hp
  obtain ⟨rest, hr⟩ := Mem.ext_drop (Mem.le_trans h hm)
  rw [InBuf.read_u32_be (by exact hr)]; rfl

theorem emits_bytes (d : List UInt8) : Emits (Render.write_bytes d) (InBuf.read_bytes d.length) d := by
  refine EmitsP.mono (EmitsP.octets (d := d) (fun r => by rw [Render.write_bytes, Render.write_bytes_r])) ?_
  rintro g p out ⟨rfl, -, h⟩ msg hm hp
  obtain ⟨rest, hr⟩ := Mem.ext_drop (Mem.le_trans h hm)
  have := Mem.ext_end' (Mem.le_trans h hm) hp
  rw [InBuf.read_bytes_eq, if_pos (by exact this)]
  simp only [hr, List.take_left]

theorem emits_name {ls : List Label} (hv : ValidName ls) (c : Bool) :
    Emits (Render.write_name (Name.ofLabels ls) c) Name.from_wire (Name.ofLabels ls) := by
  intro r g hr
  rcases Render.write_name_spec hv c hr with ⟨r', out, h1, h2, h3, h4, h5, h6, h7⟩ | ⟨r', d, h1, h2, h3, h4, h5⟩
  · refine Or.inl ⟨r', out, h1, ⟨h3, h4, h5⟩, ?_⟩
    intro msg hm _
    exact Name.from_wire_decodes (b := ⟨msg, r.buffer.len⟩) (h7.decodes hm) hv.2
  · refine Or.inr ⟨r', h1, ?_, g, Mem.le_refl g, h4⟩
    rcases h3 with h3 | h3
    · exact ⟨d, h2, h3⟩
    · exact ⟨[], by simpa [OutBuf.Inv] using hr.buf, by rw [h3, OutBuf.append_nil]⟩

end R53
