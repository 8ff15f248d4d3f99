import Verif.Spec.Decode
import Verif.Proofs.Section
import Verif.Proofs.Layout
/-!
# The readers accept exactly what the octets spell
-/
namespace R53

/-- `rd` succeeds exactly where `G` holds -/
structure Exact {α : Type} (rd : St InBuf α) (G : α → Wire) : Prop where
  to : ∀ {msg p a b'}, p ≤ msg.length → rd ⟨msg, p⟩ = (.ok a, b') → ∃ e, G a msg p e ∧ b' = ⟨msg, e⟩
  of : ∀ {msg p a e}, p ≤ msg.length → G a msg p e → rd ⟨msg, p⟩ = (.ok a, ⟨msg, e⟩)
  inside : ∀ {msg p a e}, p ≤ msg.length → G a msg p e → p ≤ e ∧ e ≤ msg.length

namespace Exact
variable {α β : Type}

theorem congr {rd : St InBuf α} {G G' : α → Wire} (h : Exact rd G) (hg : ∀ a msg p e, p ≤ msg.length → (G a msg p e ↔ G' a msg p e)) : Exact rd G' :=
  ⟨fun hp h1 => by obtain ⟨e, h2, h3⟩ := h.to hp h1; exact ⟨e, (hg _ _ _ _ hp).mp h2, h3⟩,
   fun hp h1 => h.of hp ((hg _ _ _ _ hp).mpr h1), fun hp h1 => h.inside hp ((hg _ _ _ _ hp).mpr h1)⟩

theorem pure (a : α) : Exact (Pure.pure a : St InBuf α) fun b _ p e => b = a ∧ e = p :=
  ⟨fun {msg p x b'} _ h => by
      have h' : (Res.ok a, (⟨msg, p⟩ : InBuf)) = (.ok x, b') := h
      simp only [Prod.mk.injEq, Res.ok.injEq] at h'
      exact ⟨p, ⟨h'.1.symm, rfl⟩, h'.2.symm⟩,
   fun {msg p x e} _ h => by obtain ⟨rfl, rfl⟩ := h; rfl, fun hp h => by obtain ⟨_, rfl⟩ := h; exact ⟨Nat.le_refl _, hp⟩⟩

theorem bind {m : St InBuf α} {f : α → St InBuf β} {G : α → Wire} {H : α → β → Wire} (h : Exact m G) (hf : ∀ a, Exact (f a) (H a)) :
    Exact (m >>= f) fun b msg p e => ∃ a q, G a msg p q ∧ H a b msg q e := by
  refine ⟨fun hp h1 => ?_, fun hp h1 => ?_, fun hp h1 => ?_⟩
  · obtain ⟨a, b1, k1, k2⟩ := St.bind_ok_inv h1
    obtain ⟨q, g1, rfl⟩ := h.to hp k1
    obtain ⟨e, g2, rfl⟩ := (hf a).to (h.inside hp g1).2 k2
    exact ⟨e, ⟨a, q, g1, g2⟩, rfl⟩
  · obtain ⟨a, q, g1, g2⟩ := h1
    rw [St.bind_ok (h.of hp g1)]
    exact (hf a).of (h.inside hp g1).2 g2
  · obtain ⟨a, q, g1, g2⟩ := h1
    have := h.inside hp g1
    have := (hf a).inside this.2 g2
    omega

/-- the rest may depend on what was read -/
theorem bind' {m : St InBuf α} {f : α → St InBuf β} {G : α → Wire} {H : α → β → Wire} (h : Exact m G)
    (hf : ∀ a msg p q, p ≤ msg.length → G a msg p q → Exact (f a) (H a)) :
    Exact (m >>= f) fun b msg p e => ∃ a q, G a msg p q ∧ H a b msg q e := by
  refine ⟨fun hp h1 => ?_, fun hp h1 => ?_, fun hp h1 => ?_⟩
  · obtain ⟨a, b1, k1, k2⟩ := St.bind_ok_inv h1
    obtain ⟨q, g1, rfl⟩ := h.to hp k1
    obtain ⟨e, g2, rfl⟩ := (hf a _ _ _ hp g1).to (h.inside hp g1).2 k2
    exact ⟨e, ⟨a, q, g1, g2⟩, rfl⟩
  · obtain ⟨a, q, g1, g2⟩ := h1
    rw [St.bind_ok (h.of hp g1)]
    exact (hf a _ _ _ hp g1).of (h.inside hp g1).2 g2
  · obtain ⟨a, q, g1, g2⟩ := h1
    have := h.inside hp g1
    have := (hf a _ _ _ hp g1).inside this.2 g2
    omega

theorem fail : Exact (St.fail : St InBuf α) fun _ _ _ _ => False :=
  ⟨fun _ h => by simp [St.fail] at h, fun _ h => h.elim, fun _ h => h.elim⟩

theorem ensure (c : Prop) [Decidable c] : Exact (St.lift (R53.ensure c)) fun _ _ p e => c ∧ e = p := by
  refine ⟨fun {msg p a b'} hp h => ?_, fun hp h => ?_, fun hp h => ?_⟩
  · have h' : (R53.ensure c, (⟨msg, p⟩ : InBuf)) = (.ok a, b') := h
    simp only [Prod.mk.injEq] at h'
    exact ⟨p, ⟨ensure_eq_ok.mp h'.1, rfl⟩, h'.2.symm⟩
  · obtain ⟨h1, rfl⟩ := h
    rw [St.lift_apply, ensure_eq_ok.mpr h1]
  · obtain ⟨h1, rfl⟩ := h; exact ⟨Nat.le_refl _, hp⟩

/-- `if` with a decidable condition that does not depend on the place -/
theorem ite {c : Prop} [Decidable c] {x y : St InBuf α} {G H : α → Wire} (h1 : c → Exact x G) (h2 : ¬ c → Exact y H) :
    Exact (if c then x else y) fun a msg p e => (c ∧ G a msg p e) ∨ (¬ c ∧ H a msg p e) := by
  by_cases hc : c
  · rw [if_pos hc]
    exact (h1 hc).congr fun a msg p e _ => by simp [hc]
  · rw [if_neg hc]
    exact (h2 hc).congr fun a msg p e _ => by simp [hc]

end Exact

/-! ## primitives -/

theorem OctetsAt.inside {o msg : List UInt8} {p e : Nat} (hp : p ≤ msg.length) (h : OctetsAt o msg p e) : p ≤ e ∧ e ≤ msg.length := by
  obtain ⟨rfl, t, ht⟩ := h
  have := congrArg List.length ht
  simp only [List.length_append, List.length_drop] at this
  omega

theorem OctetsAt.append {a b msg : List UInt8} {p e : Nat} : OctetsAt (a ++ b) msg p e ↔ ∃ q, OctetsAt a msg p q ∧ OctetsAt b msg q e := by
  unfold OctetsAt
  constructor
  · rintro ⟨rfl, t, ht⟩
    refine ⟨p + a.length, ⟨rfl, ⟨b ++ t, by rw [← ht]; simp⟩⟩, by rw [List.length_append]; omega, ⟨t, ?_⟩⟩
    rw [← List.drop_drop, ← ht]; simp
  · rintro ⟨q, ⟨rfl, t, ht⟩, rfl, t2, ht2⟩
    refine ⟨by rw [List.length_append]; omega, ⟨t2, ?_⟩⟩
    rw [← List.drop_drop, ← ht] at ht2
    rw [← ht, List.append_assoc, ht2]; simp

/-- a reader of a fixed number of octets that knows how to read their spelling -/
theorem exact_spelled {α : Type} {rd : St InBuf α} {sp : α → List UInt8} {n : Nat} (hlen : ∀ a, (sp a).length = n)
    (hread : ∀ msg p a t, msg.drop p = sp a ++ t → rd ⟨msg, p⟩ = (.ok a, ⟨msg, p + n⟩))
    (hall : ∀ o : List UInt8, o.length = n → ∃ a, sp a = o)
    (hshort : ∀ msg p, msg.length < p + n → ∃ b', rd ⟨msg, p⟩ = (.err, b')) : Exact rd fun a => OctetsAt (sp a) := by
  refine ⟨fun {msg p a b'} hp h => ?_, fun {msg p a e} hp h => ?_, fun hp h => OctetsAt.inside hp h⟩
  · by_cases hl : msg.length < p + n
    · obtain ⟨b2, h2⟩ := hshort msg p hl
      rw [h] at h2; simp at h2
    · obtain ⟨c, hc⟩ := hall ((msg.drop p).take n) (by simp; omega)
      have hd : msg.drop p = sp c ++ (msg.drop p).drop n := by rw [hc, List.take_append_drop]
      rw [hread msg p c _ hd] at h
      simp only [Prod.mk.injEq, Res.ok.injEq] at h
      obtain ⟨rfl, rfl⟩ := h
      exact ⟨p + n, ⟨by rw [hlen], ⟨_, hd.symm⟩⟩, rfl⟩
  · obtain ⟨rfl, t, ht⟩ := h
    rw [hread msg p a t ht.symm, hlen]

theorem exact_u8 : Exact InBuf.read_u8 fun v => OctetsAt [v] := by
  refine exact_spelled (n := 1) (fun _ => rfl) (fun msg p a t h => ?_) (fun o h => ?_) (fun msg p h => ⟨⟨msg, p⟩, ?_⟩)
  · have h0 := congrArg (·[0]?) h
    simp at h0
    rw [InBuf.read_u8_eq]
    simp only [h0]
  · match o, h with
    | [x], _ => exact ⟨x, rfl⟩
  · rw [InBuf.read_u8_eq]
    simp only [List.getElem?_eq_none (show msg.length ≤ p by omega)]

theorem exact_u16 : Exact InBuf.read_u16 fun v => OctetsAt (be16 v) := by
  refine exact_spelled (n := 2) (fun _ => rfl) (fun msg p a t h => InBuf.read_u16_be (b := ⟨msg, p⟩) h) (fun o h => ?_) (fun msg p h => ⟨⟨msg, p⟩, ?_⟩)
  · match o, h with
    | [x, y], _ =>
      have := x.toNat_lt; have := y.toNat_lt
      refine ⟨UInt16.ofNat (x.toNat * 256 + y.toNat), ?_⟩
      unfold be16
      rw [UInt16.toNat_ofNat_of_lt' (by simp [UInt16.size]; omega)]
      rw [show (x.toNat * 256 + y.toNat) / 256 = x.toNat by omega, show (x.toNat * 256 + y.toNat) % 256 = y.toNat by omega]
      simp
  · rw [InBuf.read_u16_eq, if_neg (by simp only; omega)]

theorem exact_u32 : Exact InBuf.read_u32 fun v => OctetsAt (be32 v) := by
  refine exact_spelled (n := 4) (fun _ => rfl) (fun msg p a t h => InBuf.read_u32_be (b := ⟨msg, p⟩) h) (fun o h => ?_) (fun msg p h => ⟨⟨msg, p⟩, ?_⟩)
  · match o, h with
    | [x, y, z, w], _ =>
      have := x.toNat_lt; have := y.toNat_lt; have := z.toNat_lt; have := w.toNat_lt
      refine ⟨UInt32.ofNat (x.toNat * 16777216 + y.toNat * 65536 + z.toNat * 256 + w.toNat), ?_⟩
      unfold be32
      rw [UInt32.toNat_ofNat_of_lt' (by simp [UInt32.size]; omega)]
      rw [show (x.toNat * 16777216 + y.toNat * 65536 + z.toNat * 256 + w.toNat) / 16777216 = x.toNat by omega,
        show (x.toNat * 16777216 + y.toNat * 65536 + z.toNat * 256 + w.toNat) / 65536 % 256 = y.toNat by omega,
        show (x.toNat * 16777216 + y.toNat * 65536 + z.toNat * 256 + w.toNat) / 256 % 256 = z.toNat by omega,
        show (x.toNat * 16777216 + y.toNat * 65536 + z.toNat * 256 + w.toNat) % 256 = w.toNat by omega]
      simp
  · rw [InBuf.read_u32_eq, if_neg (by simp only; omega)]

theorem exact_bytes (n : Nat) : Exact (InBuf.read_bytes n) fun o msg p e => o.length = n ∧ OctetsAt o msg p e := by
  refine ⟨fun {msg p a b'} hp h => ?_, fun {msg p a e} hp h => ?_, fun hp h => OctetsAt.inside hp h.2⟩
  · rw [InBuf.read_bytes_eq] at h
    simp only at h
    split at h
    · simp only [Prod.mk.injEq, Res.ok.injEq] at h
      obtain ⟨rfl, rfl⟩ := h
      have hl : ((msg.drop p).take n).length = n := by simp; omega
      exact ⟨p + n, ⟨hl, by rw [hl], List.take_prefix _ _⟩, rfl⟩
    · simp at h
  · obtain ⟨rfl, rfl, t, ht⟩ := h
    exact InBuf.read_bytes_be (b := ⟨msg, p⟩) ht.symm hp

theorem exact_name : Exact Name.from_wire NameAt := by
  refine ⟨fun {msg p a b'} hp h => ?_, fun {msg p a e} hp h => ?_, fun hp h => ?_⟩
  · obtain ⟨ls, h1, h2, h3, h4⟩ := Name.from_wire_ok h
    obtain ⟨d, q⟩ := b'
    simp only at h1 h4
    subst h4
    exact ⟨q, ⟨ls, h1, h2, h3⟩, rfl⟩
  · obtain ⟨ls, h1, h2, rfl⟩ := h
    exact Name.from_wire_decodes (b := ⟨msg, p⟩) h1 h2.2
  · obtain ⟨ls, h1, h2, rfl⟩ := h
    have := h1.end_le
    omega

theorem NameAt.short {n : Name} {msg : List UInt8} {p e : Nat} (hp : p ≤ msg.length) (h : NameAt n msg p e) : e ≤ p + 256 := by
  have h1 := exact_name.of hp h
  rcases safe_name ⟨msg, p⟩ hp with ⟨a, e', k1, _, _, _, k2⟩ | ⟨b', k1, _⟩
  · rw [h1] at k1
    simp only [Prod.mk.injEq, Res.ok.injEq, InBuf.mk.injEq] at k1
    obtain ⟨rfl, _, rfl⟩ := k1
    exact k2.2.2
  · rw [h1] at k1; simp at k1

/-! ## fields -/

/-- a field of a codec in a message -/
def FieldAt (c : Codec) : FieldVal → Wire
  | .name n => fun msg p e => c = .name ∧ NameAt n msg p e
  | .ip o => fun msg p e => ((c = .ipv4 ∧ o.length = 4) ∨ (c = .ipv6 ∧ o.length = 16)) ∧ OctetsAt o msg p e
  | .u8 v => fun msg p e => c = .u8 ∧ OctetsAt [v] msg p e
  | .u16 v => fun msg p e => c = .u16 ∧ OctetsAt (be16 v) msg p e
  | .u32 v => fun msg p e => c = .u32 ∧ OctetsAt (be32 v) msg p e
  | .rrtype t => fun msg p e => c = .rrtype ∧ ∃ v, t = RRType.new v ∧ OctetsAt (be16 v) msg p e
  | .text ds => fun msg p e => c = .text ∧ (∀ d ∈ ds, d.length ≤ 255) ∧ OctetsAt (ds.flatMap fun s => UInt8.ofNat s.length :: s) msg p e
  | .bytes d => fun msg p e => (c = .byte_binary ∧ d.length ≤ 255 ∧ OctetsAt (UInt8.ofNat d.length :: d) msg p e) ∨ (c = .binary ∧ OctetsAt d msg p e)


namespace Field

theorem octets_cons {x : UInt8} {d msg : List UInt8} {p e : Nat} : OctetsAt (x :: d) msg p e ↔ ∃ q, OctetsAt [x] msg p q ∧ OctetsAt d msg q e := by
  rw [← OctetsAt.append]; rfl

theorem exact_string (len : Nat) : Exact (bytes_from_wire len) fun x msg p e =>
    x.1.length ≤ 255 ∧ OctetsAt (UInt8.ofNat x.1.length :: x.1) msg p e ∧ e - p + x.2 = len := by
  unfold bytes_from_wire
  refine (exact_u8.bind fun dl => (Exact.ensure (dl.toNat < len)).bind fun _ => (exact_bytes dl.toNat).bind fun data => Exact.pure (data, len - dl.toNat - 1)).congr ?_
  rintro ⟨d, left⟩ msg p e hp
  constructor
  · rintro ⟨dl, q, h1, _, q2, ⟨h2, rfl⟩, data, q3, ⟨h3, h4⟩, h5, rfl⟩
    simp only [Prod.mk.injEq] at h5
    obtain ⟨rfl, rfl⟩ := h5
    have := dl.toNat_lt
    refine ⟨by simp only; omega, octets_cons.mpr ⟨q2, ?_, h4⟩, ?_⟩
    · rw [h3]; simpa using h1
    · have a := h1.1; have b := h4.1
      simp only [List.length_cons, List.length_nil] at a
      simp only; omega
  · rintro ⟨h1, h2, h3⟩
    simp only at h1 h2 h3
    obtain ⟨q, h4, h5⟩ := octets_cons.mp h2
    have a := h4.1; have b := h5.1
    simp only [List.length_cons, List.length_nil] at a
    have hd : (UInt8.ofNat d.length).toNat = d.length := by simp; omega
    refine ⟨UInt8.ofNat d.length, q, h4, (), q, ⟨by rw [hd]; omega, rfl⟩, d, e, ⟨hd.symm, h5⟩, ?_, rfl⟩
    rw [hd]
    simp only [Prod.mk.injEq, true_and]; omega

theorem textLoop_zero (fuel : Nat) : textLoop fuel 0 = pure [] := by rw [textLoop.eq_def]; rfl
theorem textLoop_succ {fuel left : Nat} (h : left ≠ 0) :
    textLoop (fuel + 1) left = (bytes_from_wire left >>= fun x => textLoop fuel x.2 >>= fun rest => pure (x.1 :: rest)) := by
  rw [textLoop.eq_def]; exact if_neg h

theorem exact_textLoop (fuel : Nat) : ∀ left, left ≤ fuel → Exact (textLoop fuel left) fun ds msg p e =>
    (∀ d ∈ ds, d.length ≤ 255) ∧ OctetsAt (ds.flatMap fun s => UInt8.ofNat s.length :: s) msg p e ∧ e = p + left := by
  induction fuel with
  | zero =>
    intro left hl
    obtain rfl : left = 0 := by omega
    rw [textLoop_zero]
    refine (Exact.pure []).congr fun ds msg p e hp => ⟨?_, ?_⟩
    · rintro ⟨rfl, rfl⟩
      exact ⟨by simp, ⟨rfl, List.nil_prefix⟩, rfl⟩
    · rintro ⟨h1, h2, rfl⟩
      cases ds with
      | nil => exact ⟨rfl, rfl⟩
      | cons d ds =>
        have := h2.1
        simp at this
  | succ fuel ih =>
    intro left hl
    by_cases h0 : left = 0
    · subst h0
      rw [textLoop_zero]
      refine (Exact.pure []).congr fun ds msg p e hp => ⟨?_, ?_⟩
      · rintro ⟨rfl, rfl⟩
        exact ⟨by simp, ⟨rfl, List.nil_prefix⟩, rfl⟩
      · rintro ⟨h1, h2, rfl⟩
        cases ds with
        | nil => exact ⟨rfl, rfl⟩
        | cons d ds =>
          have := h2.1
          simp at this
    · rw [textLoop_succ h0]
      have key : ∀ x : List UInt8 × Nat, x.2 ≤ fuel → Exact (textLoop fuel x.2 >>= fun rest => pure (x.1 :: rest)) fun ds msg p e =>
          ∃ rest, ds = x.1 :: rest ∧ (∀ d ∈ rest, d.length ≤ 255) ∧ OctetsAt (rest.flatMap fun s => UInt8.ofNat s.length :: s) msg p e ∧ e = p + x.2 := by
        intro x hx
        refine ((ih x.2 hx).bind fun rest => Exact.pure (x.1 :: rest)).congr fun ds msg p e hp => ⟨?_, ?_⟩
        · rintro ⟨rest, q, ⟨h1, h2, h3⟩, rfl, rfl⟩
          exact ⟨rest, rfl, h1, h2, h3⟩
        · rintro ⟨rest, rfl, h1, h2, h3⟩
          exact ⟨rest, e, ⟨h1, h2, h3⟩, rfl, rfl⟩
      refine ⟨fun {msg p a b'} hp h => ?_, fun {msg p a e} hp h => ?_, fun hp h => OctetsAt.inside hp h.2.1⟩
      · obtain ⟨x, b1, k1, k2⟩ := St.bind_ok_inv h
        obtain ⟨q, ⟨g1, g2, g3⟩, rfl⟩ := (exact_string left).to hp k1
        have hi := OctetsAt.inside hp g2
        have hq := g2.1
        simp only [List.length_cons] at hq
        obtain ⟨e, ⟨rest, rfl, g4, g5, g6⟩, rfl⟩ := (key x (by omega)).to hi.2 k2
        refine ⟨e, ⟨?_, ?_, by omega⟩, rfl⟩
        · intro d hd
          rcases List.mem_cons.mp hd with rfl | hd
          · exact g1
          · exact g4 d hd
        · rw [List.flatMap_cons]
          exact OctetsAt.append.mpr ⟨q, g2, g5⟩
      · obtain ⟨h1, h2, h3⟩ := h
        cases a with
        | nil =>
          have := h2.1
          simp at this; omega
        | cons d ds =>
          rw [List.flatMap_cons] at h2
          obtain ⟨q, g1, g2⟩ := OctetsAt.append.mp h2
          have hi := OctetsAt.inside hp g1
          have hi2 := OctetsAt.inside hi.2 g2
          have hq := g1.1
          simp only [List.length_cons] at hq
          rw [St.bind_ok ((exact_string left).of (a := (d, left - (q - p))) hp ⟨h1 d (by simp), g1, by simp only; omega⟩)]
          exact (key (d, left - (q - p)) (by simp only; omega)).of hi.2 ⟨ds, rfl, fun x hx => h1 x (by simp [hx]), g2, by simp only; omega⟩

theorem exact_field (c : Codec) (len : Nat) (hlen : len < 65536) : Exact (from_wire c len) fun x msg p e =>
    FieldAt c x.1 msg p e ∧ e - p + x.2 = len ∧ (c.rest = true → x.2 = 0) := by
  have fixed : ∀ {α : Type} (n : Nat) (rd : St InBuf α) (sp : α → List UInt8) (f : α → FieldVal) (c : Codec),
      Exact rd (fun v => OctetsAt (sp v)) → (∀ v, (sp v).length = n) → c.rest = false →
      (∀ v msg p e, FieldAt c v msg p e ↔ ∃ a, v = f a ∧ OctetsAt (sp a) msg p e) →
      Exact (St.lift (ensure (n ≤ len)) >>= fun _ => rd >>= fun v => pure (f v, len - n)) fun x msg p e =>
        FieldAt c x.1 msg p e ∧ e - p + x.2 = len ∧ (c.rest = true → x.2 = 0) := by
    intro α n rd sp f c hr hn hc hf
    refine ((Exact.ensure (n ≤ len)).bind fun _ => hr.bind fun v => Exact.pure (f v, len - n)).congr ?_
    rintro ⟨v, left⟩ msg p e hp
    constructor
    · rintro ⟨_, q, ⟨h1, rfl⟩, a, q2, h2, h3, rfl⟩
      simp only [Prod.mk.injEq] at h3
      obtain ⟨rfl, rfl⟩ := h3
      refine ⟨(hf _ _ _ _).mpr ⟨a, rfl, h2⟩, ?_, by simp [hc]⟩
      have := h2.1
      rw [hn] at this
      simp only; omega
    · rintro ⟨h1, h2, h3⟩
      obtain ⟨a, rfl, h4⟩ := (hf _ _ _ _).mp h1
      have := h4.1
      rw [hn] at this
      refine ⟨(), p, ⟨by simp only at h2; omega, rfl⟩, a, e, h4, ?_, rfl⟩
      simp only [Prod.mk.injEq, true_and]
      simp only at h2; omega
  cases c with
  | name =>
    show Exact (name_from_wire len) _
    refine ⟨fun {msg p a b'} hp h => ?_, fun {msg p a e} hp h => ?_, fun {msg p a e} hp h => ?_⟩
    · unfold name_from_wire at h
      rw [St.get_bind] at h
      obtain ⟨n, b1, k1, k2⟩ := St.bind_ok_inv h
      obtain ⟨q, g1, rfl⟩ := exact_name.to hp k1
      have hi := exact_name.inside hp g1
      have hs := g1.short hp
      rw [St.get_bind, St.lift_ok_bind (csub_ok hi.1)] at k2
      rw [Nat.mod_eq_of_lt (by omega)] at k2
      obtain ⟨q2, ⟨_, q3, ⟨g2, rfl⟩, rfl, rfl⟩, rfl⟩ := ((Exact.ensure (q - p ≤ len)).bind fun _ => Exact.pure (FieldVal.name n, len - (q - p))).to hi.2 k2
      exact ⟨_, ⟨⟨rfl, g1⟩, by simp only; omega, by simp [Codec.rest]⟩, rfl⟩
    · obtain ⟨v, left⟩ := a
      obtain ⟨h1, h2, h3⟩ := h
      simp only at h1 h2
      cases v <;> simp only [FieldAt, reduceCtorEq, false_and, and_false, or_false, true_and] at h1
      have hi := exact_name.inside hp h1
      have hs := h1.short hp
      unfold name_from_wire
      rw [St.get_bind, St.bind_ok (exact_name.of hp h1), St.get_bind, St.lift_ok_bind (csub_ok hi.1)]
      rw [Nat.mod_eq_of_lt (by omega)]
      have hle : e - p ≤ len := by omega
      rw [St.lift_ok_bind (ensure_eq_ok (u := ()) |>.mpr hle)]
      show (Res.ok (FieldVal.name _, len - (e - p)), _) = _
      rw [show len - (e - p) = left by omega]
    · obtain ⟨v, left⟩ := a
      obtain ⟨h1, h2, h3⟩ := h
      simp only at h1 h2
      cases v <;> simp only [FieldAt, reduceCtorEq, false_and, and_false, or_false, true_and] at h1
      exact exact_name.inside hp h1
  | u8 =>
    refine fixed 1 _ (fun v => [v]) FieldVal.u8 .u8 exact_u8 (fun _ => rfl) rfl fun v msg p e => ?_
    cases v <;> simp [FieldAt]
  | u16 =>
    refine fixed 2 _ be16 FieldVal.u16 .u16 exact_u16 (fun _ => rfl) rfl fun v msg p e => ?_
    cases v <;> simp [FieldAt]
  | u32 =>
    refine fixed 4 _ be32 FieldVal.u32 .u32 exact_u32 (fun _ => rfl) rfl fun v msg p e => ?_
    cases v <;> simp [FieldAt]
  | rrtype =>
    refine fixed 2 _ be16 (fun v => FieldVal.rrtype (RRType.new v)) .rrtype exact_u16 (fun _ => rfl) rfl fun v msg p e => ?_
    cases v <;> simp [FieldAt]
  | text =>
    refine ((exact_textLoop len len (Nat.le_refl _)).bind fun ds => Exact.pure (FieldVal.text ds, 0)).congr ?_
    rintro ⟨v, left⟩ msg p e hp
    constructor
    · rintro ⟨ds, q, ⟨h1, h2, rfl⟩, h3, rfl⟩
      simp only [Prod.mk.injEq] at h3
      obtain ⟨rfl, rfl⟩ := h3
      exact ⟨⟨rfl, h1, h2⟩, by simp only; omega, fun _ => rfl⟩
    · rintro ⟨h1, h2, h3⟩
      obtain rfl : left = 0 := h3 rfl
      simp only at h1 h2
      cases v <;> simp only [FieldAt, reduceCtorEq, false_and, and_false, or_false, true_and] at h1
      have := OctetsAt.inside hp h1.2
      exact ⟨_, e, ⟨h1.1, h1.2, by omega⟩, rfl, rfl⟩
  | byte_binary =>
    refine ((exact_string len).bind fun x => Exact.pure (FieldVal.bytes x.1, x.2)).congr ?_
    rintro ⟨v, left⟩ msg p e hp
    constructor
    · rintro ⟨x, q, ⟨h1, h2, h3⟩, h4, rfl⟩
      simp only [Prod.mk.injEq] at h4
      obtain ⟨rfl, rfl⟩ := h4
      exact ⟨Or.inl ⟨rfl, h1, h2⟩, h3, by simp [Codec.rest]⟩
    · rintro ⟨h1, h2, h3⟩
      simp only at h1 h2
      cases v <;> simp only [FieldAt, reduceCtorEq, false_and, and_false, or_false, true_and] at h1
      rename_i d
      exact ⟨(d, left), e, ⟨h1.1, h1.2, h2⟩, rfl, rfl⟩
  | binary =>
    refine ((exact_bytes len).bind fun x => Exact.pure (FieldVal.bytes x, 0)).congr ?_
    rintro ⟨v, left⟩ msg p e hp
    constructor
    · rintro ⟨x, q, ⟨h1, h2⟩, h4, rfl⟩
      simp only [Prod.mk.injEq] at h4
      obtain ⟨rfl, rfl⟩ := h4
      have := h2.1
      exact ⟨Or.inr ⟨rfl, h2⟩, by simp only; omega, fun _ => rfl⟩
    · rintro ⟨h1, h2, h3⟩
      obtain rfl : left = 0 := h3 rfl
      simp only at h1 h2
      cases v <;> simp only [FieldAt, reduceCtorEq, false_and, and_false, false_or, or_false, true_and] at h1
      have := h1.1
      exact ⟨_, e, ⟨by omega, h1⟩, rfl, rfl⟩
  | ipv6 =>
    show Exact (ipv6_from_wire len) _
    unfold ipv6_from_wire
    have hin : Exact (InBuf.read_bytes 16 >>= fun bytes => St.lift (assertR (bytes.length = 16)) >>= fun _ => pure (FieldVal.ip bytes, len - 16))
        fun x msg p e => ∃ o, x = (FieldVal.ip o, len - 16) ∧ o.length = 16 ∧ OctetsAt o msg p e := by
      refine ⟨fun {msg p a b'} hp h => ?_, fun {msg p a e} hp h => ?_, fun {msg p a e} hp h => ?_⟩
      · obtain ⟨o, b1, k1, k2⟩ := St.bind_ok_inv h
        obtain ⟨q, ⟨g1, g2⟩, rfl⟩ := (exact_bytes 16).to hp k1
        rw [St.lift_ok_bind (assertR_eq_ok (u := ()) |>.mpr g1)] at k2
        have k2' : (Res.ok (FieldVal.ip o, len - 16), (⟨msg, q⟩ : InBuf)) = (.ok a, b') := k2
        simp only [Prod.mk.injEq, Res.ok.injEq] at k2'
        obtain ⟨rfl, rfl⟩ := k2'
        exact ⟨q, ⟨o, rfl, g1, g2⟩, rfl⟩
      · obtain ⟨o, rfl, g1, g2⟩ := h
        rw [St.bind_ok ((exact_bytes 16).of hp ⟨g1, g2⟩), St.lift_ok_bind (assertR_eq_ok (u := ()) |>.mpr g1)]
        rfl
      · obtain ⟨o, rfl, g1, g2⟩ := h
        exact OctetsAt.inside hp g2
    refine ((Exact.ensure (16 ≤ len)).bind fun _ => hin).congr ?_
    rintro ⟨v, left⟩ msg p e hp
    constructor
    · rintro ⟨_, q, ⟨h1, rfl⟩, o, h2, h3, h4⟩
      simp only [Prod.mk.injEq] at h2
      obtain ⟨rfl, rfl⟩ := h2
      have := h4.1
      exact ⟨⟨Or.inr ⟨rfl, h3⟩, h4⟩, by simp only; omega, by simp [Codec.rest]⟩
    · rintro ⟨h1, h2, h3⟩
      simp only at h1 h2
      cases v <;> simp only [FieldAt, reduceCtorEq, false_and, and_false, false_or, or_false, true_and] at h1
      have := h1.2.1
      refine ⟨(), p, ⟨by omega, rfl⟩, _, ?_, h1.1, h1.2⟩
      simp only [Prod.mk.injEq, true_and]; omega
  | ipv4 =>
    show Exact (ipv4_from_wire len) _
    unfold ipv4_from_wire
    have hin : Exact (InBuf.read_bytes 4 >>= fun bytes => St.lift (idx bytes 0) >>= fun a => St.lift (idx bytes 1) >>= fun b =>
        St.lift (idx bytes 2) >>= fun c => St.lift (idx bytes 3) >>= fun d => pure (FieldVal.ip [a, b, c, d], len - 4))
        fun x msg p e => ∃ o, x = (FieldVal.ip o, len - 4) ∧ o.length = 4 ∧ OctetsAt o msg p e := by
      refine ⟨fun {msg p a b'} hp h => ?_, fun {msg p a e} hp h => ?_, fun {msg p a e} hp h => ?_⟩
      · obtain ⟨o, b1, k1, k2⟩ := St.bind_ok_inv h
        obtain ⟨q, ⟨g1, g2⟩, rfl⟩ := (exact_bytes 4).to hp k1
        match o, g1 with
        | [x, y, z, w], _ =>
          have k2' : (Res.ok (FieldVal.ip [x, y, z, w], len - 4), (⟨msg, q⟩ : InBuf)) = (.ok a, b') := k2
          simp only [Prod.mk.injEq, Res.ok.injEq] at k2'
          obtain ⟨rfl, rfl⟩ := k2'
          exact ⟨q, ⟨_, rfl, rfl, g2⟩, rfl⟩
      · obtain ⟨o, rfl, g1, g2⟩ := h
        rw [St.bind_ok ((exact_bytes 4).of hp ⟨g1, g2⟩)]
        match o, g1 with
        | [x, y, z, w], _ => rfl
      · obtain ⟨o, rfl, g1, g2⟩ := h
        exact OctetsAt.inside hp g2
    refine ((Exact.ensure (4 ≤ len)).bind fun _ => hin).congr ?_
    rintro ⟨v, left⟩ msg p e hp
    constructor
    · rintro ⟨_, q, ⟨h1, rfl⟩, o, h2, h3, h4⟩
      simp only [Prod.mk.injEq] at h2
      obtain ⟨rfl, rfl⟩ := h2
      have := h4.1
      exact ⟨⟨Or.inl ⟨rfl, h3⟩, h4⟩, by simp only; omega, by simp [Codec.rest]⟩
    · rintro ⟨h1, h2, h3⟩
      simp only at h1 h2
      cases v <;> simp only [FieldAt, reduceCtorEq, false_and, and_false, false_or, or_false, true_and] at h1
      have := h1.2.1
      refine ⟨(), p, ⟨by omega, rfl⟩, _, ?_, h1.1, h1.2⟩
      simp only [Prod.mk.injEq, true_and]; omega

end Field

def FieldsAt : List (Codec × Disp) → List FieldVal → Wire
  | [], [] => fun _ p e => e = p
  | c :: cs, v :: vs => fun msg p e => ∃ q, FieldAt c.1 v msg p q ∧ FieldsAt cs vs msg q e
  | _, _ => fun _ _ _ => False

theorem FieldAt.inside {c : Codec} {v : FieldVal} {msg : List UInt8} {p e : Nat} (hp : p ≤ msg.length) (h : FieldAt c v msg p e) : p ≤ e ∧ e ≤ msg.length := by
  cases v with
  | name n => exact exact_name.inside hp h.2
  | ip o => exact OctetsAt.inside hp h.2
  | u8 v => exact OctetsAt.inside hp h.2
  | u16 v => exact OctetsAt.inside hp h.2
  | u32 v => exact OctetsAt.inside hp h.2
  | rrtype t => obtain ⟨_, v, _, h⟩ := h; exact OctetsAt.inside hp h
  | text ds => exact OctetsAt.inside hp h.2.2
  | bytes d => rcases h with ⟨_, _, h⟩ | ⟨_, h⟩ <;> exact OctetsAt.inside hp h

theorem FieldsAt.inside {cs : List (Codec × Disp)} {vs : List FieldVal} {msg : List UInt8} {p e : Nat} (hp : p ≤ msg.length) (h : FieldsAt cs vs msg p e) :
    p ≤ e ∧ e ≤ msg.length := by
  induction cs generalizing vs p with
  | nil =>
    cases vs with
    | nil => have h : e = p := h; omega
    | cons _ _ => exact h.elim
  | cons c cs ih =>
    cases vs with
    | nil => exact h.elim
    | cons v vs =>
      obtain ⟨q, h1, h2⟩ := h
      have := h1.inside hp
      have := ih this.2 h2
      omega

theorem exact_all (cs : List (Codec × Disp)) (hcs : Field.RestLast cs) : ∀ len, len < 65536 → Exact (Field.allFrom cs len) fun x msg p e =>
    FieldsAt cs x.1 msg p e ∧ p ≤ e ∧ e - p + x.2 = len ∧ ((∃ c ∈ cs, c.1.rest = true) → x.2 = 0) := by
  induction cs with
  | nil =>
    intro len hlen
    refine (Exact.pure (([] : List FieldVal), len)).congr ?_
    rintro ⟨vs, left⟩ msg p e hp
    constructor
    · rintro ⟨h, rfl⟩
      simp only [Prod.mk.injEq] at h
      obtain ⟨rfl, rfl⟩ := h
      exact ⟨rfl, Nat.le_refl _, by simp, by simp⟩
    · rintro ⟨h1, h2, h3, _⟩
      cases vs with
      | nil =>
        have h1 : e = p := h1
        subst h1
        simp only at h3
        exact ⟨by simp only [Prod.mk.injEq, true_and]; omega, rfl⟩
      | cons v vs => exact h1.elim
  | cons c cs ih =>
    intro len hlen
    unfold Field.allFrom
    refine ((Field.exact_field c.1 len hlen).bind' (H := fun x y msg p e => ∃ vs left, y = (x.1 :: vs, left) ∧ FieldsAt cs vs msg p e ∧
        p ≤ e ∧ e - p + left = x.2 ∧ ((∃ c ∈ cs, c.1.rest = true) → left = 0)) ?_).congr ?_
    · rintro ⟨v, l⟩ msg p q hp ⟨_, h2, _⟩
      simp only at h2
      refine ((ih hcs.2 l (by omega)).bind fun x => Exact.pure (v :: x.1, x.2)).congr ?_
      rintro y msg p e hp
      constructor
      · rintro ⟨x, q, h1, rfl, rfl⟩
        exact ⟨x.1, x.2, rfl, h1⟩
      · rintro ⟨vs, left, rfl, h1⟩
        exact ⟨(vs, left), e, h1, rfl, rfl⟩
    · rintro ⟨ws, left⟩ msg p e hp
      constructor
      · rintro ⟨⟨v, l⟩, q, ⟨h1, h2, h3⟩, vs, left', h4, h5, h6, h7, h8⟩
        simp only [Prod.mk.injEq] at h4
        obtain ⟨rfl, rfl⟩ := h4
        have hi := (Field.exact_field c.1 len hlen).inside (a := (v, l)) hp ⟨h1, h2, h3⟩
        simp only at h1 h2 h3 h7
        refine ⟨⟨q, h1, h5⟩, by omega, by simp only; omega, ?_⟩
        rintro ⟨x, hx, hr⟩
        rcases List.mem_cons.mp hx with rfl | hx
        · have := h3 hr; simp only; omega
        · exact h8 ⟨x, hx, hr⟩
      · rintro ⟨h1, h2, h3, h4⟩
        cases ws with
        | nil => exact h1.elim
        | cons v vs =>
          obtain ⟨q, g1, g2⟩ := h1
          simp only at h3 h4
          have hq := g1.inside hp
          have hq2 := FieldsAt.inside hq.2 g2
          refine ⟨(v, len - (q - p)), q, ⟨g1, by simp only; omega, fun hr => ?_⟩, vs, left, rfl, g2, hq2.1, by simp only; omega, ?_⟩
          · have hnil := hcs.1 hr
            subst hnil
            cases vs with
            | nil =>
              have g2 : e = q := g2
              have := h4 ⟨c, by simp, hr⟩
              simp only; omega
            | cons _ _ => exact g2.elim
          · rintro ⟨x, hx, hr⟩
            exact h4 ⟨x, List.mem_cons_of_mem _ hx, hr⟩

/-! ## record data -/

theorem FieldAt.shape {c : Codec} {v : FieldVal} {msg : List UInt8} {p e : Nat} (h : FieldAt c v msg p e) : FieldShape v c := by
  cases v with
  | name n => obtain ⟨rfl, _⟩ := h; exact ⟨_, rfl⟩
  | ip o => obtain ⟨⟨rfl, _⟩ | ⟨rfl, _⟩, _⟩ := h <;> exact ⟨_, rfl⟩
  | u8 v => obtain ⟨rfl, _⟩ := h; exact ⟨_, rfl⟩
  | u16 v => obtain ⟨rfl, _⟩ := h; exact ⟨_, rfl⟩
  | u32 v => obtain ⟨rfl, _⟩ := h; exact ⟨_, rfl⟩
  | rrtype t => obtain ⟨rfl, _⟩ := h; exact ⟨_, rfl⟩
  | text ds => obtain ⟨rfl, _⟩ := h; exact ⟨_, rfl⟩
  | bytes d => rcases h with ⟨rfl, _⟩ | ⟨rfl, _⟩ <;> exact ⟨_, rfl⟩

theorem FieldsAt.shape {cs : List (Codec × Disp)} {vs : List FieldVal} {msg : List UInt8} {p e : Nat} (h : FieldsAt cs vs msg p e) : FieldsShape cs vs := by
  induction cs generalizing vs p with
  | nil =>
    cases vs with
    | nil => rfl
    | cons _ _ => exact h.elim
  | cons c cs ih =>
    cases vs with
    | nil => exact h.elim
    | cons v vs =>
      obtain ⟨q, h1, h2⟩ := h
      exact ⟨v, vs, rfl, h1.shape, ih h2⟩

theorem Wire.all_strings (ss : List (List UInt8)) (msg : List UInt8) (p e : Nat) : Wire.all (ss.map Wire.fields.str) msg p e ↔
    (∀ d ∈ ss, d.length ≤ 255) ∧ OctetsAt (ss.flatMap fun s => UInt8.ofNat s.length :: s) msg p e := by
  induction ss generalizing p with
  | nil =>
    refine ⟨fun h => ⟨by simp, ?_⟩, fun h => ?_⟩
    · have h : e = p := h
      exact ⟨by simp [h], List.nil_prefix⟩
    · have := h.2.1
      exact this
  | cons s ss ih =>
    rw [List.map_cons, List.flatMap_cons, OctetsAt.append]
    constructor
    · rintro ⟨q, ⟨h1, h2⟩, h3⟩
      obtain ⟨h4, h5⟩ := (ih q).mp h3
      refine ⟨fun d hd => ?_, q, h2, h5⟩
      rcases List.mem_cons.mp hd with rfl | hd
      · exact h1
      · exact h4 d hd
    · rintro ⟨h1, q, h2, h3⟩
      exact ⟨q, ⟨h1 s (by simp), h2⟩, (ih q).mpr ⟨fun d hd => h1 d (by simp [hd]), h3⟩⟩

/-- the structs have the layout of the documents -/
theorem fieldsAt_layout {t : RRType} {cs : List (Codec × Disp)} (hs : schema t = some cs) (vs : List FieldVal) (msg : List UInt8) (p e : Nat) :
    FieldsAt cs vs msg p e ↔ ∃ fs, layout Wire.fields t vs = some fs ∧ Wire.all fs msg p e := by
  by_cases hsh : FieldsShape cs vs
  · cases t <;> simp only [schema, Option.some.injEq, reduceCtorEq] at hs <;> subst hs <;>
      · simp only [FieldsShape, FieldShape] at hsh
        repeat (obtain ⟨v, vs, rfl, ⟨x, rfl⟩, hsh⟩ := hsh)
        simp only [layout, Option.some.injEq, exists_eq_left', Wire.all_strings]
        simp [FieldsAt, FieldAt, Wire.all, Wire.fields]
  · constructor
    · intro h; exact absurd h.shape hsh
    · rintro ⟨fs, h1, h2⟩
      obtain ⟨cs', k1, k2⟩ := layout_shape h1
      rw [hs] at k1
      simp only [Option.some.injEq] at k1
      subst k1
      exact absurd k2 hsh

theorem exact_rdata (t : RRType) (len : UInt16) : Exact (RData.from_wire t len) fun rd msg p e => rd.kind = t ∧ e = p + len.toNat ∧ DataAt rd msg p e := by
  have hlt : len.toNat < 65536 := len.toNat_lt
  cases hs : schema t with
  | none =>
    have hf : RData.from_wire t len = St.fail := by
      unfold RData.from_wire
      rw [hs]; rfl
    rw [hf]
    refine Exact.fail.congr fun rd msg p e hp => ⟨False.elim, ?_⟩
    rintro ⟨rfl, _, fs, h1, _⟩
    obtain ⟨cs, k1, _⟩ := layout_shape h1
    rw [hs] at k1; simp at k1
  | some cs =>
    have hst : Exact (RData.structFrom cs len.toNat) fun vs msg p e => FieldsAt cs vs msg p e ∧ e = p + len.toNat := by
      unfold RData.structFrom
      refine ((exact_all cs (schema_restLast t cs hs) len.toNat hlt).bind fun x => (Exact.ensure (x.2 = 0)).bind fun _ => Exact.pure x.1).congr ?_
      intro vs msg p e hp
      constructor
      · rintro ⟨x, q, ⟨h1, h2, h3, h4⟩, _, q2, ⟨h5, rfl⟩, rfl, rfl⟩
        exact ⟨h1, by omega⟩
      · rintro ⟨h1, h2⟩
        exact ⟨(vs, 0), e, ⟨h1, by omega, by simp only; omega, fun _ => rfl⟩, (), e, ⟨rfl, rfl⟩, rfl, rfl⟩
    refine ⟨fun {msg p a b'} hp h => ?_, fun {msg p a e} hp h => ?_, fun {msg p a e} hp h => ?_⟩
    · unfold RData.from_wire at h
      rw [St.get_bind, hs] at h
      obtain ⟨vs, b1, k1, k2⟩ := St.bind_ok_inv h
      obtain ⟨e, ⟨g1, rfl⟩, rfl⟩ := hst.to hp k1
      rw [St.get_bind, St.lift_ok_bind (csub_ok (by simp only; omega))] at k2
      rw [if_neg (show ¬ ((⟨msg, p + len.toNat⟩ : InBuf).pos - (⟨msg, p⟩ : InBuf).pos ≠ len.toNat) by simp only; omega)] at k2
      have k2' : (Res.ok (⟨t, vs⟩ : RData), (⟨msg, p + len.toNat⟩ : InBuf)) = (.ok a, b') := k2
      simp only [Prod.mk.injEq, Res.ok.injEq] at k2'
      obtain ⟨rfl, rfl⟩ := k2'
      exact ⟨_, ⟨rfl, rfl, (fieldsAt_layout hs vs msg p _).mp g1⟩, rfl⟩
    · obtain ⟨rfl, rfl, h3⟩ := h
      have hf := (fieldsAt_layout hs a.fields msg p _).mpr h3
      unfold RData.from_wire
      rw [St.get_bind, hs]
      simp only
      rw [St.bind_ok (hst.of hp ⟨hf, rfl⟩), St.get_bind, St.lift_ok_bind (csub_ok (by simp only; omega))]
      rw [if_neg (show ¬ ((⟨msg, p + len.toNat⟩ : InBuf).pos - (⟨msg, p⟩ : InBuf).pos ≠ len.toNat) by simp only; omega)]
      rfl
    · obtain ⟨rfl, rfl, h3⟩ := h
      have hf := (fieldsAt_layout hs a.fields msg p _).mpr h3
      exact FieldsAt.inside hp hf

end R53
