import Verif.Model.Header
import Verif.Proofs.Codec
/-!
# Codes and headers
-/
namespace R53

theorem u16_and_or (a b c : UInt16) : (a ||| b) &&& c = (a &&& c) ||| (b &&& c) := by
  apply UInt16.toNat_inj.mp
  simp only [UInt16.toNat_and, UInt16.toNat_or, Nat.and_or_distrib_right]

theorem RRType.as_ite {c : Prop} [Decidable c] {t e : RRType} {v : UInt16} (h1 : c → t.as_u16 = v) (h2 : e.as_u16 = v) :
    (if c then t else e).as_u16 = v := by split <;> simp_all

theorem RRType.as_u16_new (v : UInt16) : (RRType.new v).as_u16 = v := by
  unfold RRType.new
  iterate 26 refine RRType.as_ite (fun h => by subst h; rfl) ?_
  rfl

theorem RRType.new_as_u16 (v : UInt16) (t : RRType) (h : t = RRType.new v) : RRType.new t.as_u16 = t := by
  subst h; rw [RRType.as_u16_new]

theorem RRClass.to_u16_new (v : UInt16) : (RRClass.new v).to_u16 = v := by
  unfold RRClass.new
  repeat' split
  all_goals (try subst_vars) <;> rfl

/-- a value `RRType::new` can return (no `Unknown` with an assigned number) -/
def RRType.Canonical (t : RRType) : Prop := RRType.new t.as_u16 = t
def RRClass.Canonical (c : RRClass) : Prop := RRClass.new c.to_u16 = c

instance (t : RRType) : Decidable t.Canonical := by unfold RRType.Canonical; infer_instance
instance (c : RRClass) : Decidable c.Canonical := by unfold RRClass.Canonical; infer_instance

theorem RRType.new_canonical (v : UInt16) : (RRType.new v).Canonical := by
  unfold Canonical; rw [as_u16_new]
theorem RRClass.new_canonical (v : UInt16) : (RRClass.new v).Canonical := by
  unfold Canonical; rw [to_u16_new]

theorem emits_rrtype {t : RRType} (h : t.Canonical) : Emits t.to_wire RRType.from_wire t :=
  Emits.map (emits_u16 t.as_u16) fun s => by rw [h]; rfl

theorem emits_rrclass {c : RRClass} (h : c.Canonical) : Emits c.to_wire RRClass.from_wire c :=
  Emits.map (emits_u16 c.to_u16) fun s => by rw [h]; rfl

/-- a name built by this library -/
theorem emits_wfname {n : Name} (h : n.WF) (c : Bool) : Emits (Render.write_name n c) Name.from_wire n := by
  obtain ⟨ls, hv, rfl⟩ := h
  exact emits_name hv c

theorem emits_question {q : Question} (h : q.name.WF) (ht : q.typ.Canonical) (hc : q.class_.Canonical) :
    Emits q.to_wire Question.from_wire q := by
  refine Emits.bind (emits_wfname h true) (Emits.bind (emits_rrtype ht) (Emits.map (emits_rrclass hc) fun s => rfl))

/-- fixed octets one after the other -/
theorem EmitsP.seqOct {w1 w2 : St Render Unit} {x y : List UInt8} (h1 : EmitsP w1 fun _ _ out => out = x)
    (h2 : EmitsP w2 fun _ _ out => out = y) : EmitsP (w1 >>= fun _ => w2) fun _ _ out => out = x ++ y :=
  EmitsP.seq h1 h2 fun _ _ _ _ _ h1 h2 _ => by rw [h1, h2]

namespace Header

theorem flag_parts (h : Header) :
    h.header_flag &&& HEADERFLAG_MASK = h.flag &&& HEADERFLAG_MASK ∧
    Opcode.new ((h.header_flag &&& OPCODE_MASK) >>> OPCODE_SHIFT).toUInt8 = h.opcode ∧
    Rcode.new (h.header_flag &&& RCODE_MASK).toUInt8 = h.rcode := by
  unfold header_flag
  have e0 : (h.flag &&& HEADERFLAG_MASK) &&& HEADERFLAG_MASK = h.flag &&& HEADERFLAG_MASK := by
    rw [UInt16.and_assoc]; rfl
  have e1 : (h.flag &&& HEADERFLAG_MASK) &&& OPCODE_MASK = 0 := by
    rw [UInt16.and_assoc, show HEADERFLAG_MASK &&& OPCODE_MASK = 0 from rfl]; simp
  have e2 : (h.flag &&& HEADERFLAG_MASK) &&& RCODE_MASK = 0 := by
    rw [UInt16.and_assoc, show HEADERFLAG_MASK &&& RCODE_MASK = 0 from rfl]; simp
  simp only [u16_and_or, e0, e1, e2]
  have k : ∀ (o : Opcode) (c : Rcode),
      ((o.to_u8.toUInt16 <<< OPCODE_SHIFT &&& OPCODE_MASK) &&& HEADERFLAG_MASK ||| (c.to_u8.toUInt16 &&& RCODE_MASK) &&& HEADERFLAG_MASK) = 0 ∧
      Opcode.new (((o.to_u8.toUInt16 <<< OPCODE_SHIFT &&& OPCODE_MASK) &&& OPCODE_MASK |||
        (c.to_u8.toUInt16 &&& RCODE_MASK) &&& OPCODE_MASK ||| 0) >>> OPCODE_SHIFT).toUInt8 = o ∧
      Rcode.new ((o.to_u8.toUInt16 <<< OPCODE_SHIFT &&& OPCODE_MASK) &&& RCODE_MASK |||
        (c.to_u8.toUInt16 &&& RCODE_MASK) &&& RCODE_MASK ||| 0).toUInt8 = c := by
    intro o c; cases o <;> cases c <;> decide +kernel
  obtain ⟨k1, k2, k3⟩ := k h.opcode h.rcode
  refine ⟨by rw [k1]; simp, k2, k3⟩

/-- the header as it is read back -/
def masked (h : Header) : Header := { h with flag := h.flag &&& HEADERFLAG_MASK }

theorem emits_header (h : Header) : Emits h.to_wire Header.from_wire h.masked := by
  unfold to_wire from_wire
  refine Emits.bind (emits_u16 _) (Emits.bind (emits_u16 _) (Emits.bind (emits_u16 _) (Emits.bind (emits_u16 _)
    (Emits.bind (emits_u16 _) (Emits.map (emits_u16 _) fun s => ?_)))))
  obtain ⟨k1, k2, k3⟩ := flag_parts h
  rw [k1, k2, k3]; rfl

/-- the octets of a header -/
def octets (h : Header) : List UInt8 :=
  be16 h.id ++ (be16 h.header_flag ++ (be16 h.qd_count ++ (be16 h.an_count ++ (be16 h.ns_count ++ be16 h.ar_count))))

theorem emits_header_octets (h : Header) : EmitsP h.to_wire fun _ _ out => out = h.octets := by
  have w : ∀ v, EmitsP (Render.write_u16 v) fun _ _ out => out = be16 v := fun v =>
    EmitsP.mono (EmitsP.octets (d := be16 v) (fun r => by rw [Render.write_u16, Render.write_u16_r]; rfl)) fun _ _ _ h => h.1
  unfold to_wire octets
  exact (w _).seqOct ((w _).seqOct ((w _).seqOct ((w _).seqOct ((w _).seqOct (w _)))))

end Header

/-- two facts about the same write -/
theorem EmitsP.and {w : St Render Unit} {P Q : Mem → Nat → List UInt8 → Prop} (h1 : EmitsP w P) (h2 : EmitsP w Q) :
    EmitsP w fun g p out => P g p out ∧ Q g p out := by
  intro r g hr
  rcases h1 r g hr with ⟨r1, a, e1, k1, p1⟩ | h
  · rcases h2 r g hr with ⟨r2, b, e2, k2, p2⟩ | ⟨r2, e2, _⟩
    · rw [e1] at e2
      simp only [Prod.mk.injEq, true_and] at e2
      subst e2
      have hab : a = b := by
        have := k1.data.symm.trans k2.data
        exact List.append_cancel_left this
      subst hab
      exact Or.inl ⟨r1, a, e1, k1, p1, p2⟩
    · rw [e1] at e2; simp at e2
  · exact Or.inr h

end R53
