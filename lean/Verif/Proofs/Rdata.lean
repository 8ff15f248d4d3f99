import Verif.Proofs.Safe
import Verif.Spec.Rdata
/-!
# Record data: decoding is total, encoding reads back
-/
namespace R53

/-! ## a reader whose consumption is measured -/

def measured {α β : Type} (rd : St InBuf α) (f : α → Nat → St InBuf β) : St InBuf β := do
  let b ← St.get
  let a ← rd
  let b' ← St.get
  let d ← St.lift (csub b'.pos b.pos)
  f a d

theorem Reads.measured {α β : Type} {g : Mem} {p q e : Nat} {rd : St InBuf α} {f : α → Nat → St InBuf β} {a : α} {b : β}
    (h : Reads g p rd a q) (hpq : p ≤ q) (h' : Reads g q (f a (q - p)) b e)
    (hq : ∀ msg, g.le (memOf msg) → p ≤ msg.length → q ≤ msg.length) : Reads g p (measured rd f) b e := by
  intro msg hm hp
  unfold R53.measured
  rw [St.get_bind, St.bind_ok (h msg hm hp), St.get_bind]
  rw [St.lift_ok_bind (csub_ok hpq)]
  exact h' msg hm (hq msg hm hp)

theorem Safe.measured {α β : Type} {s : Bool} {rd : St InBuf α} {f : α → Nat → St InBuf β} {Q : Nat → α → Nat → Prop}
    {R : Nat → β → Nat → Prop} (h : Safe s rd Q)
    (hf : ∀ p a m, p ≤ m → Q p a m → Safe s (f a (m - p)) fun m' b e => m' = m → R p b e) : Safe s (measured rd f) R := by
  intro b hb
  unfold R53.measured
  rw [St.get_bind]
  rcases h b hb with ⟨a, m, h1, h2, h3, h4, h5⟩ | ⟨b', h1, h2⟩
  · rw [St.bind_ok h1, St.get_bind]
    have hc : csub (⟨b.data, m⟩ : InBuf).pos b.pos = .ok (m - b.pos) := csub_ok h2
    rcases hf b.pos a m h2 h5 ⟨b.data, m⟩ h3 with ⟨c, e, k1, k2, k3, k4, k5⟩ | ⟨b', k1, k2⟩
    · have k2' : m ≤ e := k2
      refine Or.inl ⟨c, e, by rw [St.lift_ok_bind hc]; exact k1, Nat.le_trans h2 k2', k3, ?_, k5 rfl⟩
      refine (h4.le (region_mono s b.data k2')).measured h2 k4 fun msg hm _ => ?_
      have := region_len (by exact k3) hm
      omega
    · exact Or.inr ⟨b', by rw [St.lift_ok_bind hc]; exact k1, k2⟩
  · exact Or.inr ⟨b', by rw [St.bind_err h1], h2⟩

/-! ## decoding -/

/-- all fields but names are decoded from their own octets only -/
def Codec.own : Codec → Bool
  | .name => false
  | _ => true

namespace Field

theorem safe_bytesField {s : Bool} (len : Nat) : Safe s (bytes_from_wire len) fun p x e => x.1.length ≤ 255 ∧ x.2 + (e - p) = len ∧ x.2 < len := by
  unfold bytes_from_wire
  refine Safe.bind safe_u8 fun p dl m _ h => Safe.bind (Safe.ensure (Q := fun q _ e => e = q ∧ dl.toNat < len) fun q hq => ⟨rfl, hq⟩) ?_
  intro p2 _ m2 _ h2
  refine Safe.bind (safe_bytes _) fun p3 d m3 _ h3 => Safe.pure fun q hq hq2 hq3 => ?_
  have := dl.toNat_lt
  refine ⟨by show d.length ≤ 255; omega, ?_, ?_⟩
  · show len - dl.toNat - 1 + (q - p) = len; omega
  · show len - dl.toNat - 1 < len; omega

theorem safe_textLoop {s : Bool} (fuel left : Nat) (h : left ≤ fuel) : Safe s (textLoop fuel left) fun p ds e => (∀ d ∈ ds, d.length ≤ 255) ∧ e = p + left := by
  induction fuel generalizing left with
  | zero =>
    unfold textLoop
    rw [if_pos (by omega)]
    exact Safe.pure fun p => ⟨by simp, by omega⟩
  | succ fuel ih =>
    unfold textLoop
    by_cases h0 : left = 0
    · rw [if_pos h0]
      exact Safe.pure fun p => ⟨by simp, by omega⟩
    · rw [if_neg h0]
      refine Safe.bind (safe_bytesField left) fun p x m _ hx => ?_
      obtain ⟨d, l⟩ := x
      simp only at hx
      refine Safe.bind (ih l (by omega)) fun p2 ds m2 _ hds => Safe.pure fun q hq hq2 => ⟨?_, by omega⟩
      simp only [List.mem_cons, forall_eq_or_imp]
      exact ⟨hx.1, hds.1⟩

theorem safe_from_wire (c : Codec) (len : Nat) (hlen : len < 65536) :
    Safe c.own (from_wire c len) fun p x e => FieldFits c x.1 ∧ x.2 + (e - p) = len := by
  have en : ∀ {s : Bool} (c : Prop) [Decidable c], Safe s (St.lift (ensure c) : St InBuf Unit) fun q _ e => e = q ∧ c :=
    fun c _ => Safe.ensure fun q hq => ⟨rfl, hq⟩
  cases c <;> unfold from_wire
  · show Safe false (measured Name.from_wire fun n d => do
      St.lift (ensure (d % 65536 ≤ len))
      pure (FieldVal.name n, len - d % 65536)) _
    refine Safe.measured safe_name fun p n m hm h => Safe.bind (en _) fun p2 _ m2 _ h2 => Safe.pure fun q h3 h4 => ⟨h.1, ?_⟩
    obtain ⟨h2, h5⟩ := h2
    rw [Nat.mod_eq_of_lt (by omega)] at h5
    show len - (m - p) % 65536 + (q - p) = len
    rw [Nat.mod_eq_of_lt (by omega)]; omega
  · unfold ipv4_from_wire
    refine Safe.bind (en _) fun p _ m _ h => Safe.bind (safe_bytes 4) fun p2 d m2 _ h2 => ?_
    have hi : ∀ i (hi : i < 4), idx d i = .ok (d[i]'(by omega)) := fun i hi => idx_of_lt (by omega)
    refine Safe.bind (Safe.lift_ok (hi 0 (by omega)) (Q := fun q _ e => e = q) fun _ => rfl) fun p3 _ m3 _ h3 =>
      Safe.bind (Safe.lift_ok (hi 1 (by omega)) (Q := fun q _ e => e = q) fun _ => rfl) fun p4 _ m4 _ h4 =>
      Safe.bind (Safe.lift_ok (hi 2 (by omega)) (Q := fun q _ e => e = q) fun _ => rfl) fun p5 _ m5 _ h5 =>
      Safe.bind (Safe.lift_ok (hi 3 (by omega)) (Q := fun q _ e => e = q) fun _ => rfl) fun p6 _ m6 _ h6 =>
      Safe.pure fun q _ _ _ _ _ _ => ⟨rfl, ?_⟩
    show len - 4 + (q - p) = len; omega
  · unfold ipv6_from_wire
    refine Safe.bind (en _) fun p _ m _ h => Safe.bind (safe_bytes 16) fun p2 d m2 _ h2 => ?_
    refine Safe.bind (Safe.lift_ok (a := ()) (by simp [assertR, h2.2]) (Q := fun q _ e => e = q) fun _ => rfl) fun p3 _ m3 _ h3 =>
      Safe.pure fun q _ _ _ => ⟨h2.2, ?_⟩
    show len - 16 + (q - p) = len; omega
  · unfold u8_from_wire
    refine Safe.bind (en _) fun p _ m _ h => Safe.bind safe_u8 fun p2 d m2 _ h2 => Safe.pure fun q _ _ => ⟨trivial, ?_⟩
    show len - 1 + (q - p) = len; omega
  · unfold u16_from_wire
    refine Safe.bind (en _) fun p _ m _ h => Safe.bind safe_u16 fun p2 d m2 _ h2 => Safe.pure fun q _ _ => ⟨trivial, ?_⟩
    show len - 2 + (q - p) = len; omega
  · unfold u32_from_wire
    refine Safe.bind (en _) fun p _ m _ h => Safe.bind safe_u32 fun p2 d m2 _ h2 => Safe.pure fun q _ _ => ⟨trivial, ?_⟩
    show len - 4 + (q - p) = len; omega
  · unfold rrtype_from_wire
    refine Safe.bind (en _) fun p _ m _ h => Safe.bind safe_u16 fun p2 d m2 _ h2 => Safe.pure fun q _ _ => ⟨RRType.new_canonical _, ?_⟩
    show len - 2 + (q - p) = len; omega
  · refine Safe.bind (safe_textLoop len len (Nat.le_refl _)) fun p ds m _ h => Safe.pure fun q _ => ⟨h.1, ?_⟩
    show 0 + (q - p) = len; omega
  · refine Safe.bind (safe_bytesField len) fun p x m _ h => ?_
    obtain ⟨d, l⟩ := x
    refine Safe.pure fun q _ => ⟨h.1, ?_⟩
    have := h.2.1
    simp only at this ⊢; omega
  · refine Safe.bind (safe_bytes len) fun p d m _ h => Safe.pure fun q _ => ⟨trivial, ?_⟩
    show 0 + (q - p) = len; omega

/-- all fields of a struct -/
def ownAll (cs : List (Codec × Disp)) : Bool := cs.all fun c => c.1.own

theorem safe_allFrom {s : Bool} (cs : List (Codec × Disp)) (hs : s = true → ownAll cs = true) (len : Nat) (hlen : len < 65536) :
    Safe s (allFrom cs len) fun p x e => FieldsFit cs x.1 ∧ x.2 + (e - p) = len := by
  induction cs generalizing len with
  | nil => exact Safe.pure fun p => ⟨trivial, by show len + (p - p) = len; omega⟩
  | cons c cs ih =>
    unfold allFrom
    have h1 : Safe s (from_wire c.1 len) fun p x e => FieldFits c.1 x.1 ∧ x.2 + (e - p) = len := by
      have := safe_from_wire c.1 len hlen
      cases s
      · exact this.weak
      · have h2 := hs rfl
        simp only [ownAll, List.all_cons, Bool.and_eq_true] at h2
        rwa [h2.1] at this
    refine Safe.bind h1 fun p x m _ hx => ?_
    obtain ⟨v, l⟩ := x
    simp only at hx
    refine Safe.bind (ih (fun h => by have := hs h; simp only [ownAll, List.all_cons, Bool.and_eq_true] at this; exact this.2) l (by omega))
      fun p2 y m2 _ hy => ?_
    obtain ⟨vs, l2⟩ := y
    simp only at hy
    refine Safe.pure fun q hq hq2 => ⟨⟨hx.1, hy.1⟩, ?_⟩
    show l2 + (q - p) = len; omega

end Field

namespace RData

theorem safe_structFrom {s : Bool} (cs : List (Codec × Disp)) (hs : s = true → Field.ownAll cs = true) (len : Nat) (hlen : len < 65536) :
    Safe s (structFrom cs len) fun p vs e => FieldsFit cs vs ∧ e = p + len := by
  unfold structFrom
  refine Safe.bind (Field.safe_allFrom cs hs len hlen) fun p x m _ hx => ?_
  obtain ⟨vs, l⟩ := x
  simp only at hx
  refine Safe.bind (Safe.ensure (Q := fun q _ e => e = q ∧ l = 0) fun q hq => ⟨rfl, hq⟩) fun p2 _ m2 _ h2 =>
    Safe.pure fun q hq hq2 => ⟨hx.1, by omega⟩

/-- the result depends on the record's own octets only: the type has no name in it -/
def own (t : RRType) : Bool := match schema t with | none => true | some cs => Field.ownAll cs

theorem safe_from_wire (t : RRType) (len : UInt16) :
    Safe (own t) (from_wire t len) fun p rd e => rd.kind = t ∧ rd.Fits ∧ e = p + len.toNat := by
  unfold from_wire own
  cases hs : schema t with
  | none =>
    intro b _
    exact Or.inr ⟨b, by simp [St.get_bind], rfl⟩
  | some cs =>
    show Safe _ (measured (structFrom cs len.toNat) fun vs d => if d ≠ len.toNat then St.fail else pure (⟨t, vs⟩ : RData)) _
    refine Safe.measured (safe_structFrom cs (fun h => h) len.toNat len.toNat_lt) fun p vs m _ h => ?_
    rw [if_neg (by omega)]
    exact Safe.pure fun q hq => ⟨rfl, ⟨cs, hs, h.1⟩, by omega⟩

end RData

/-! ## encoding -/

/-- a field that takes all that is left -/
def Codec.rest : Codec → Bool
  | .text => true
  | .binary => true
  | _ => false

theorem Mem.ext_idem (g : Mem) (p : Nat) (d : List UInt8) : (g.ext p d).ext p d = g.ext p d := by
  funext i; unfold Mem.ext; split <;> rfl

theorem emits_u8' (v : UInt8) : EmitsP (Render.write_u8 v) fun g p out => Reads g p InBuf.read_u8 v (p + out.length) ∧ out = [v] :=
  EmitsP.and (emits_u8 v) (EmitsP.mono (EmitsP.octets (d := [v]) (Render.write_u8_r v)) fun _ _ _ h => h.1)
theorem emits_u16' (v : UInt16) : EmitsP (Render.write_u16 v) fun g p out => Reads g p InBuf.read_u16 v (p + out.length) ∧ out = be16 v :=
  EmitsP.and (emits_u16 v) (EmitsP.mono (EmitsP.octets (d := be16 v) (fun r => by rw [Render.write_u16, Render.write_u16_r]; rfl)) fun _ _ _ h => h.1)
theorem emits_u32' (v : UInt32) : EmitsP (Render.write_u32 v) fun g p out => Reads g p InBuf.read_u32 v (p + out.length) ∧ out = be32 v :=
  EmitsP.and (emits_u32 v) (EmitsP.mono (EmitsP.octets (d := be32 v) (fun r => by rw [Render.write_u32, Render.write_u32_r])) fun _ _ _ h => h.1)
theorem emits_bytes' (d : List UInt8) :
    EmitsP (Render.write_bytes d) fun g p out => Reads g p (InBuf.read_bytes d.length) d (p + out.length) ∧ out = d :=
  EmitsP.and (emits_bytes d) (EmitsP.mono (EmitsP.octets (d := d) (fun r => by rw [Render.write_bytes, Render.write_bytes_r])) fun _ _ _ h => h.1)

/-- whatever a writer appended is inside every message that has the recorded octets -/
theorem EmitsP.inside {w : St Render Unit} {P : Mem → Nat → List UInt8 → Prop} (h : EmitsP w P) :
    EmitsP w fun g p out => P g p out ∧ ∀ msg, g.le (memOf msg) → p ≤ msg.length → p + out.length ≤ msg.length := by
  intro r g hr
  rcases h r g hr with ⟨r', out, e1, e2, e3⟩ | h
  · exact Or.inl ⟨r', out, e1, e2, e3, fun msg hm hp => Mem.ext_end' (by exact hm) hp⟩
  · exact Or.inr h

/-- whatever a writer appended is recorded -/
theorem EmitsP.recorded {w : St Render Unit} {P : Mem → Nat → List UInt8 → Prop} (h : EmitsP w P) :
    EmitsP w fun g p out => P g p out ∧ (g.ext p out).le g := by
  intro r g hr
  rcases h r g hr with ⟨r', out, e1, e2, e3⟩ | h
  · exact Or.inl ⟨r', out, e1, e2, e3, by rw [Mem.ext_idem]; exact Mem.le_refl _⟩
  · exact Or.inr h

/-- a name is at most 256 octets on the wire -/
theorem emits_wfname' {n : Name} (hn : n.WF) (c : Bool) :
    EmitsP (Render.write_name n c) fun g p out => Reads g p Name.from_wire n (p + out.length) ∧ out.length ≤ 256 := by
  intro r g hr
  rcases emits_wfname hn c r g hr with ⟨r', out, e1, e2, e3⟩ | h
  · refine Or.inl ⟨r', out, e1, e2, e3, ?_⟩
    have hl : r'.buffer.contents.length = r'.buffer.len := OutBuf.contents_length e2.inv.buf
    have h3 := e3 r'.buffer.contents e2.inv.mem (by rw [hl, e2.len]; omega)
    obtain ⟨ls, h4, h5, -, -⟩ := Name.from_wire_ok h3
    have := (Decodes.bound h4).2.2
    have := h5.2
    simp only at *
    omega
  · exact Or.inr h

namespace Field

theorem emits_octets (o : List UInt8) : EmitsP (octets_to_wire o) fun g p out => out = o ∧ (g.ext p o).le g := by
  induction o with
  | nil =>
    intro r g hr
    exact Or.inl ⟨r, [], rfl, Wrote.nil hr, rfl, by rw [Mem.ext_nil, Mem.ext_nil]; exact Mem.le_refl _⟩
  | cons x xs ih =>
    have h1 := EmitsP.octets (d := [x]) (Render.write_u8_r x)
    refine EmitsP.seq h1 ih ?_
    rintro g p a b - ⟨rfl, -, -⟩ ⟨rfl, -⟩ -
    refine ⟨rfl, ?_⟩
    rw [Mem.ext_ext]
    rw [show x :: b = [x] ++ b from rfl, Mem.ext_idem]; exact Mem.le_refl _

/-- reading a character-string back, with any `len` that has room for it -/
theorem emits_bytesField (d : List UInt8) (hd : d.length ≤ 255) :
    EmitsP (bytes_to_wire d) fun g p out => out.length = d.length + 1 ∧
      ∀ len, out.length ≤ len → Reads g p (bytes_from_wire len) (d, len - out.length) (p + out.length) := by
  unfold bytes_to_wire
  refine EmitsP.seq (emits_u8' (UInt8.ofNat d.length)) (emits_bytes' d) ?_
  rintro g p a b - ⟨k1, rfl⟩ ⟨k2, rfl⟩ hle
  have hn : (UInt8.ofNat b.length).toNat = b.length := by rw [UInt8.toNat_ofNat']; omega
  refine ⟨by simp, fun len hlen => ?_⟩
  unfold bytes_from_wire
  simp only [List.length_append, List.length_singleton] at hlen ⊢
  refine (k1.le hle).bind ?_ fun msg hm hp => Mem.ext_end' (Mem.le_trans hle hm) hp
  intro msg hm hp
  rw [St.lift_ok_bind (a := ()) (by rw [hn]; unfold ensure; rw [if_pos (by omega)]), hn, St.bind_ok (k2 msg hm hp)]
  simp only [List.length_singleton, Nat.add_assoc, pure, Prod.mk.injEq, Res.ok.injEq, true_and, and_true]
  omega

theorem emits_text (ds : List (List UInt8)) (hd : ∀ d ∈ ds, d.length ≤ 255) :
    EmitsP (text_to_wire ds) fun g p out => ∀ fuel, out.length ≤ fuel → Reads g p (textLoop fuel out.length) ds (p + out.length) := by
  induction ds with
  | nil =>
    intro r g hr
    refine Or.inl ⟨r, [], rfl, Wrote.nil hr, fun fuel _ => ?_⟩
    unfold textLoop
    simp only [List.length_nil, if_true]
    exact Reads.pure _
  | cons d ds ih =>
    refine EmitsP.seq (emits_bytesField d (hd d (by simp))) (ih fun x hx => hd x (by simp [hx])) ?_
    rintro g p a b - ⟨k0, k1⟩ k2 hle fuel hfuel
    simp only [List.length_append] at hfuel ⊢
    cases fuel with
    | zero => omega
    | succ fuel =>
      unfold textLoop
      rw [if_neg (by omega)]
      refine Reads.bind (a := (d, a.length + b.length - a.length)) ((k1 _ (by omega)).le hle) ?_
        fun msg hm hp => Mem.ext_end' (Mem.le_trans hle hm) hp
      simp only
      rw [show a.length + b.length - a.length = b.length by omega, ← Nat.add_assoc]
      exact (k2 fuel (by omega)).map fun s => rfl

theorem emits_field (c : Codec) (v : FieldVal) (hv : FieldFits c v) :
    EmitsP (to_wire c v) fun g p out => ∀ len, out.length ≤ len → (c.rest = true → len = out.length) → len < 65536 →
      Reads g p (from_wire c len) (v, len - out.length) (p + out.length) := by
  have en : ∀ {g : Mem} {p e : Nat} {c : Prop} [Decidable c] {α : Type} {f : Unit → St InBuf α} {a : α}, c →
      Reads g p (f ()) a e → Reads g p (St.lift (ensure c) >>= f) a e := by
    intro g p e c _ α f a hc h msg hm hp
    rw [St.lift_ok_bind (a := ()) (by simp [ensure, hc])]
    exact h msg hm hp
  cases c <;> cases v <;> simp only [FieldFits] at hv <;> unfold to_wire from_wire
  case name.name n =>
    refine EmitsP.mono (EmitsP.inside (emits_wfname' hv true)) ?_
    · rintro g p out ⟨⟨h1, h2⟩, h3⟩ len hlen - hlt
      show Reads g p (measured Name.from_wire fun n d => do
        St.lift (ensure (d % 65536 ≤ len))
        pure (FieldVal.name n, len - d % 65536)) _ _
      refine h1.measured (by omega) ?_ h3
      rw [show p + out.length - p = out.length by omega, Nat.mod_eq_of_lt (by omega)]
      exact en (by omega) (Reads.pure _)
  case ipv4.ip o =>
    refine EmitsP.mono (emits_octets o) ?_
    rintro g p out ⟨rfl, h⟩ len hlen - -
    refine en (by omega) ?_
    intro msg hm hp
    obtain ⟨rest, hr⟩ := Mem.ext_drop (Mem.le_trans h hm)
    have := Mem.ext_end' (Mem.le_trans h hm) hp
    obtain ⟨a, b, c, d, rfl⟩ : ∃ a b c d, out = [a, b, c, d] := by
      match out, hv with
      | [a, b, c, d], _ => exact ⟨a, b, c, d, rfl⟩
    rw [St.bind_ok (a := [a, b, c, d]) (s' := ⟨msg, p + 4⟩) (by
      rw [InBuf.read_bytes_eq, if_pos (by exact this)]
      simp only [hr]; rfl)]
    rfl
  case ipv6.ip o =>
    refine EmitsP.mono (emits_octets o) ?_
    rintro g p out ⟨rfl, h⟩ len hlen - -
    refine en (by omega) ?_
    intro msg hm hp
    obtain ⟨rest, hr⟩ := Mem.ext_drop (Mem.le_trans h hm)
    have := Mem.ext_end' (Mem.le_trans h hm) hp
    rw [St.bind_ok (a := out) (s' := ⟨msg, p + 16⟩) (by
      rw [InBuf.read_bytes_eq, if_pos (by rw [← hv]; exact this)]
      simp only [hr]; rw [← hv, List.take_left])]
    rw [St.lift_ok_bind (a := ()) (by simp [assertR, hv]), hv]
    rfl
  case u8.u8 v =>
    refine EmitsP.mono (emits_u8' v) ?_
    rintro g p out ⟨h, rfl⟩ len hlen - -
    exact en hlen (h.map fun s => rfl)
  case u16.u16 v =>
    refine EmitsP.mono (emits_u16' v) ?_
    rintro g p out ⟨h, rfl⟩ len hlen - -
    exact en hlen (h.map fun s => rfl)
  case u32.u32 v =>
    refine EmitsP.mono (emits_u32' v) ?_
    rintro g p out ⟨h, rfl⟩ len hlen - -
    exact en hlen (h.map fun s => rfl)
  case rrtype.rrtype t =>
    refine EmitsP.mono (emits_u16' t.as_u16) ?_
    rintro g p out ⟨h, rfl⟩ len hlen - -
    exact en hlen (h.map fun s => by rw [hv]; rfl)
  case text.text ds =>
    refine EmitsP.mono (emits_text ds hv) ?_
    intro g p out h len hlen hrest _
    rw [hrest rfl]
    exact (h _ (Nat.le_refl _)).map fun s => by simp
  case byte_binary.bytes d =>
    refine EmitsP.mono (emits_bytesField d hv) ?_
    intro g p out h len hlen _ _
    exact (h.2 len hlen).map fun s => rfl
  case binary.bytes d =>
    refine EmitsP.mono (emits_bytes' d) ?_
    rintro g p out ⟨h, rfl⟩ len hlen hrest -
    rw [hrest rfl]
    exact h.map fun s => by simp

/-- a field that takes the rest comes last -/
def RestLast : List (Codec × Disp) → Prop
  | [] => True
  | c :: cs => (c.1.rest = true → cs = []) ∧ RestLast cs

theorem emits_all (cs : List (Codec × Disp)) (hcs : RestLast cs) (vs : List FieldVal) (hv : FieldsFit cs vs) :
    EmitsP (allTo cs vs) fun g p out => (cs = [] → out = []) ∧ ∀ len, out.length ≤ len → ((∃ c ∈ cs, c.1.rest = true) → len = out.length) → len < 65536 →
      Reads g p (allFrom cs len) (vs, len - out.length) (p + out.length) := by
  induction cs generalizing vs with
  | nil =>
    cases vs with
    | nil =>
      intro r g hr
      exact Or.inl ⟨r, [], rfl, Wrote.nil hr, fun _ => rfl, fun len _ _ _ => Reads.pure _⟩
    | cons v vs => simp [FieldsFit] at hv
  | cons c cs ih =>
    cases vs with
    | nil => simp [FieldsFit] at hv
    | cons v vs =>
      unfold allTo
      refine EmitsP.seq (emits_field c.1 v hv.1) (ih hcs.2 vs hv.2) ?_
      rintro g p a b - k1 ⟨k0, k2⟩ hle
      refine ⟨by simp, fun len hlen hrest hlt => ?_⟩
      simp only [List.length_append] at hlen hrest ⊢
      unfold allFrom
      have hb : c.1.rest = true → len = a.length := by
        intro hc
        have := hrest ⟨c, by simp, hc⟩
        have := k0 (hcs.1 hc)
        subst this
        simpa using hrest ⟨c, by simp, hc⟩
      refine Reads.bind ((k1 len (by omega) hb hlt).le hle) ?_ fun msg hm hp => Mem.ext_end' (Mem.le_trans hle hm) hp
      simp only
      rw [← Nat.add_assoc]
      refine (k2 (len - a.length) (by omega) (fun ⟨x, hx, hr⟩ => ?_) (by omega)).map fun s => ?_
      · have := hrest ⟨x, by simp [hx], hr⟩; omega
      · rw [Nat.sub_sub]; rfl

end Field
end R53

namespace R53

theorem schema_restLast (t : RRType) (cs : List (Codec × Disp)) (h : schema t = some cs) : Field.RestLast cs := by
  cases t <;> simp only [schema, Option.some.injEq, reduceCtorEq] at h <;> subst h <;> simp [Field.RestLast, Codec.rest]

theorem emits_rdata {rd : RData} (h : rd.Fits) :
    EmitsP rd.to_wire fun g p out => out.length < 65536 →
      Reads g p (RData.from_wire rd.kind (UInt16.ofNat out.length)) rd (p + out.length) := by
  obtain ⟨cs, hs, hf⟩ := h
  unfold RData.to_wire RData.from_wire
  rw [hs]
  refine EmitsP.mono (EmitsP.inside (Field.emits_all cs (schema_restLast _ _ hs) rd.fields hf)) ?_
  rintro g p out ⟨⟨-, h1⟩, h2⟩ hlt
  have hn : (UInt16.ofNat out.length).toNat = out.length := by rw [UInt16.toNat_ofNat']; omega
  rw [hn]
  show Reads g p (measured (RData.structFrom cs out.length) fun vs d => if d ≠ out.length then St.fail else pure (⟨rd.kind, vs⟩ : RData)) _ _
  have h3 : Reads g p (RData.structFrom cs out.length) rd.fields (p + out.length) := by
    unfold RData.structFrom
    refine (h1 out.length (Nat.le_refl _) (fun _ => rfl) hlt).bind ?_ h2
    simp only
    intro msg hm hp
    rw [St.lift_ok_bind (a := ()) (by simp [ensure])]
    rfl
  refine h3.measured (by omega) ?_ h2
  rw [if_neg (by omega)]
  exact Reads.pure _

end R53
