import Verif.Proofs.Decode3
import Verif.Proofs.Encode2
/-!
# The reference encoder writes what the documents call a message

No renderer here: only the dictionary encoder (Spec/Encode.lean) and the recogniser (Spec/Decode.lean).
-/
namespace R53

theorem Decodes.tail {msg : List UInt8} {limit pos : Nat} {ls : List Label} {e : Nat} (h : Decodes msg limit pos ls e) (tail : List UInt8) :
    Decodes (msg ++ tail) limit pos ls e := by
  refine h.append fun i v hi => ?_
  have hi : msg[i]? = some v := hi
  show (msg ++ tail)[i]? = some v
  rw [List.getElem?_append_left (List.getElem?_eq_some_iff.mp hi).1]; exact hi

/-- a name is at its position, which can be pointed at -/
def PlacedAt (msg : List UInt8) (x : List Label × Nat) : Prop := (∃ e, Decodes msg x.2 x.2 x.1 e) ∧ x.2 ≤ 0x3fff ∧ x.2 < msg.length

theorem PlacedAt.tail {msg : List UInt8} {x : List Label × Nat} (h : PlacedAt msg x) (tail : List UInt8) : PlacedAt (msg ++ tail) x := by
  obtain ⟨⟨e, h1⟩, h2, h3⟩ := h
  exact ⟨⟨e, h1.tail tail⟩, h2, by rw [List.length_append]; omega⟩

/-- all names of the dictionary are where it says -/
def Placed (d : Dict) (msg : List UInt8) : Prop := ∀ x ∈ d, PlacedAt msg x

theorem Placed.tail {d : Dict} {msg : List UInt8} (h : Placed d msg) (tail : List UInt8) : Placed d (msg ++ tail) := fun x hx => (h x hx).tail tail

theorem encLabels_length (k : Memory) (d : Dict) (pos : Nat) (ls : List Label) (hv : ∀ l ∈ ls, ValidLabel l) :
    (encLabels k d pos ls).1.length ≤ (nameWire ls).length := by
  induction ls generalizing d pos with
  | nil => simp [encLabels, nameWire, wire]
  | cons l ls ih =>
    have hl := (hv l (by simp)).1
    have h2 : (nameWire (l :: ls)).length = 1 + l.length + (nameWire ls).length := by simp [nameWire]; omega
    have h3 : 1 ≤ (nameWire ls).length := by simp [nameWire]
    rw [encLabels]
    split
    · simp [pointerTo]; omega
    · have := ih (if pos ≤ 0x3fff ∧ k d (l :: ls) then d ++ [(l :: ls, pos)] else d) (pos + (l.length + 1)) fun x hx => hv x (by simp [hx])
      simp only [labelWire, List.length_append, List.length_cons]; omega

/-- while a name that began at `st` is written, the dictionary may hold names of it that are not complete; these are longer -/
theorem encLabels_placed (k : Memory) (st : Nat) (d : Dict) (pre : List UInt8) (ls : List Label) (hv : ∀ l ∈ ls, ValidLabel l) (hst : st ≤ pre.length)
    (hd : ∀ x ∈ d, (PlacedAt pre x ∧ x.2 < st) ∨ ls.length < x.1.length) :
    let x := encLabels k d pre.length ls
    (∀ tail, Decodes (pre ++ x.1 ++ tail) st pre.length ls (pre.length + x.1.length)) ∧
    ∀ y ∈ x.2, PlacedAt (pre ++ x.1) y ∨ (y ∈ d ∧ ls.length < y.1.length) := by
  induction ls generalizing d pre with
  | nil =>
    refine ⟨fun tail => .root (by simp [encLabels]), fun y hy => ?_⟩
    have hy : y ∈ d := hy
    rcases hd y hy with h | h
    · exact Or.inl (h.1.tail _)
    · exact Or.inr ⟨hy, h⟩
  | cons l ls ih =>
    have hl := hv l (by simp)
    have hu := u8_len hl.2
    cases hk : d.lookup (l :: ls) with
    | some p =>
      have he : encLabels k d pre.length (l :: ls) = (pointerTo p, d) := by rw [encLabels, hk]
      rw [he]
      have hmem := lookup_mem hk
      rcases hd _ hmem with ⟨⟨⟨e, h1⟩, h2, h3⟩, h4⟩ | h
      · simp only at h1 h2 h3 h4
        refine ⟨fun tail => ?_, fun y hy => ?_⟩
        · have hhi : (UInt8.ofNat (192 + p / 256)).toNat = 192 + p / 256 := by simp; omega
          have hlo : (UInt8.ofNat (p % 256)).toNat = p % 256 := by simp
          have hp : (192 + p / 256 - 192) * 256 + p % 256 = p := by omega
          refine .pointer (UInt8.ofNat (192 + p / 256)) (UInt8.ofNat (p % 256)) ?_ (by omega) ?_ ?_ (e' := e) ?_
          · simp [pointerTo]
          · rw [List.append_assoc, List.getElem?_append_right (by omega), show pre.length + 1 - pre.length = 1 by omega]
            simp [pointerTo]
          · rw [hhi, hlo, hp]; exact h4
          · rw [hhi, hlo, hp, List.append_assoc]; exact h1.tail _
        · rcases hd y hy with h | h
          · exact Or.inl (h.1.tail _)
          · exact Or.inr ⟨hy, h⟩
      · simp at h
    | none =>
      have he : encLabels k d pre.length (l :: ls) =
          (labelWire l ++ (encLabels k (if pre.length ≤ 0x3fff ∧ k d (l :: ls) then d ++ [(l :: ls, pre.length)] else d) (pre.length + (l.length + 1)) ls).1,
           (encLabels k (if pre.length ≤ 0x3fff ∧ k d (l :: ls) then d ++ [(l :: ls, pre.length)] else d) (pre.length + (l.length + 1)) ls).2) := by
        rw [encLabels, hk]
      rw [he]
      have hlen : pre.length + (l.length + 1) = (pre ++ labelWire l).length := by simp [labelWire]
      rw [hlen]
      have := ih (if pre.length ≤ 0x3fff ∧ k d (l :: ls) then d ++ [(l :: ls, pre.length)] else d) (pre ++ labelWire l) (fun x hx => hv x (by simp [hx]))
        (by rw [List.length_append]; omega) (by
          intro x hx
          have hx' : x ∈ d ∨ x = (l :: ls, pre.length) := by
            split at hx
            · simpa using hx
            · exact Or.inl hx
          rcases hx' with hx' | rfl
          · rcases hd x hx' with h | h
            · exact Or.inl ⟨h.1.tail _, h.2⟩
            · right; simp only [List.length_cons] at h; omega
          · right; simp)
      generalize hy : encLabels k (if pre.length ≤ 0x3fff ∧ k d (l :: ls) then d ++ [(l :: ls, pre.length)] else d) (pre ++ labelWire l).length ls = y at this ⊢
      obtain ⟨h1, h2⟩ := this
      have hdec : ∀ tail, Decodes (pre ++ (labelWire l ++ y.1) ++ tail) st pre.length (l :: ls) (pre.length + (labelWire l ++ y.1).length) := by
        intro tail
        have h3 := h1 tail
        have h4 : pre ++ labelWire l ++ y.1 ++ tail = pre ++ (labelWire l ++ y.1) ++ tail := by simp
        rw [h4] at h3
        have h5 : (pre ++ labelWire l).length = pre.length + 1 + (UInt8.ofNat l.length).toNat := by rw [hu, ← hlen]; omega
        have h6 : (pre ++ labelWire l).length + y.1.length = pre.length + (labelWire l ++ y.1).length := by simp; omega
        rw [h6] at h3
        rw [h5] at h3
        refine .label (UInt8.ofNat l.length) ?_ (by rw [hu]; exact hl.1) (by rw [hu]; exact hl.2) hu.symm ?_ h3
        · simp [labelWire]
        · rw [hu]
          simp [labelWire]
      refine ⟨hdec, fun z hz => ?_⟩
      rcases h2 z hz with h3 | ⟨h3, h4⟩
      · left; simpa using h3
      · have hz' : z ∈ d ∨ (z = (l :: ls, pre.length) ∧ pre.length ≤ 0x3fff) := by
          split at h3
          · rename_i hc; simp only [List.mem_append, List.mem_singleton] at h3; exact h3.imp id fun h => ⟨h, hc.1⟩
          · exact Or.inl h3
        rcases hz' with hz' | ⟨rfl, hle⟩
        · rcases hd z hz' with h | h
          · exact Or.inl (h.1.tail _)
          · exact Or.inr ⟨hz', h⟩
        · left
          have := hdec []
          rw [List.append_nil] at this
          exact ⟨⟨_, this.mono hst⟩, hle, by simp [labelWire]⟩

/-- what `e` writes, at most `n` octets, is a `g`; the dictionary stays right -/
def Spells (e : Enc) (g : Wire) (n : Nat) : Prop := ∀ (d : Dict) (pre : List UInt8), Placed d pre →
  Placed (e d pre.length).2 (pre ++ (e d pre.length).1) ∧
  (∀ tail, g (pre ++ (e d pre.length).1 ++ tail) pre.length (pre.length + (e d pre.length).1.length)) ∧
  (e d pre.length).1.length ≤ n ∧ (1 ≤ n → 1 ≤ (e d pre.length).1.length)

namespace Spells

theorem name {k : Memory} {n : Name} (h : n.WF) : Spells (Enc.name k n) (NameAt n) n.raw.length := by
  obtain ⟨ls, hv, rfl⟩ := h
  intro d pre hd
  have h1 := encLabels_placed k pre.length d pre ls hv.1 (Nat.le_refl _) fun x hx => Or.inl ⟨hd x hx, (hd x hx).2.2⟩
  have h2 := encLabels_length k d pre.length ls hv.1
  have h3 := encLabels_pos k d pre.length ls
  unfold Enc.name
  rw [R53.labels_ofLabels hv, Name.ofLabels_raw, ← nameWire_eq]
  refine ⟨fun y hy => ?_, fun tail => ⟨ls, h1.1 tail, hv, rfl⟩, h2, fun _ => h3⟩
  rcases h1.2 y hy with h | ⟨h, _⟩
  · exact h
  · exact (hd y h).tail _

theorem octets {o : List UInt8} {g : Wire} {n : Nat} (hn : o.length = n) (h : ∀ msg p, OctetsAt o msg p (p + o.length) → g msg p (p + o.length)) :
    Spells (Enc.octets o) g n := by
  intro d pre hd
  refine ⟨hd.tail _, fun tail => h _ _ ⟨rfl, tail, ?_⟩, by simp [Enc.octets, hn], fun h => by simpa [Enc.octets, hn] using h⟩
  simp [Enc.octets]

theorem plain {n : Name} (h : n.WF) : Spells (Enc.plain n) (NameAt n) n.raw.length := by
  obtain ⟨ls, hv, rfl⟩ := h
  refine octets ?_ ?_
  · rw [R53.labels_ofLabels hv, Name.ofLabels_raw, ← nameWire_eq]
  · rintro msg p ⟨_, t, ht⟩
    rw [R53.labels_ofLabels hv] at ht ⊢
    exact ⟨ls, Decodes.of_wire hv.1 ht.symm, hv, rfl⟩

theorem seq {a b : Enc} {g k l : Wire} {n m : Nat} (h1 : Spells a g n) (h2 : Spells b k m) (hl : ∀ msg p q e, g msg p q → k msg q e → l msg p e) :
    Spells (Enc.seq a b) l (n + m) := by
  intro d pre hd
  obtain ⟨a1, a2, a3, a4⟩ := h1 d pre hd
  have := h2 (a d pre.length).2 (pre ++ (a d pre.length).1) a1
  simp only [Enc.seq]
  rw [List.length_append] at this
  obtain ⟨b1, b2, b3, b4⟩ := this
  refine ⟨by rw [← List.append_assoc]; exact b1, fun tail => ?_, by rw [List.length_append]; omega, fun h => ?_⟩
  · have c1 := a2 ((b (a d pre.length).2 (pre.length + (a d pre.length).1.length)).1 ++ tail)
    have c2 := b2 tail
    rw [← List.append_assoc] at c1
    rw [← List.append_assoc pre, List.length_append, ← Nat.add_assoc]
    exact hl _ _ _ _ c1 c2
  · rw [List.length_append]; omega

theorem imp {e : Enc} {g k : Wire} {n : Nat} (h : Spells e g n) (hk : ∀ msg p e, g msg p e → k msg p e) : Spells e k n := fun d pre hd => by
  obtain ⟨a1, a2, a3, a4⟩ := h d pre hd
  exact ⟨a1, fun tail => hk _ _ _ (a2 tail), a3, a4⟩

/-- one thing after the other -/
theorem all {es : List (Enc × Wire × Nat)} (h : ∀ x ∈ es, Spells x.1 x.2.1 x.2.2) :
    Spells (Enc.all (es.map (·.1))) (Wire.all (es.map (·.2.1))) (es.map (·.2.2)).sum := by
  induction es with
  | nil => exact octets rfl fun msg p _ => rfl
  | cons x es ih =>
    exact seq (h x (by simp)) (ih fun y hy => h y (by simp [hy])) fun msg p q e h1 h2 => ⟨q, h1, h2⟩

/-- the length in front -/
theorem measured {e : Enc} {g : Wire} {n : Nat} (h : Spells e g n) (hn : n ≤ 65535) :
    Spells (Enc.measured e) (fun msg p q => ∃ len : UInt16, OctetsAt (be16 len) msg p (p + 2) ∧ q = p + 2 + len.toNat ∧ (1 ≤ n → len ≠ 0) ∧ g msg (p + 2) q) (n + 2) := by
  intro d pre hd
  unfold Enc.measured
  have e1 : ∀ o : UInt16, pre.length + 2 = (pre ++ be16 o).length := fun o => by simp [be16]
  generalize hx : e d (pre.length + 2) = x
  rw [e1 (UInt16.ofNat x.1.length)] at hx
  obtain ⟨a1, a2, a3, a4⟩ := h d (pre ++ be16 (UInt16.ofNat x.1.length)) (hd.tail _)
  rw [hx] at a1 a2 a3 a4
  have e2 : (UInt16.ofNat x.1.length).toNat = x.1.length := by simp; omega
  refine ⟨by rw [← List.append_assoc]; exact a1, fun tail => ⟨UInt16.ofNat x.1.length, ⟨by simp [be16], x.1 ++ tail, by simp⟩, ?_, ?_, ?_⟩, by simp [be16]; omega,
    fun _ => by simp [be16]⟩
  · rw [e2]; simp [be16]; omega
  · intro h0 hz
    have := congrArg UInt16.toNat hz
    rw [e2] at this
    have h9 := a4 h0
    rw [UInt16.toNat_zero] at this
    omega
  · have := a2 tail
    rw [← e1] at this
    rw [← List.append_assoc pre]
    have e3 : pre.length + (be16 (UInt16.ofNat x.1.length) ++ x.1).length = pre.length + 2 + x.1.length := by simp [be16]; omega
    rw [e3]; exact this

end Spells

/-! ## record data -/

/-- writing and reading side by side, with the size -/
def bothWays (k : Memory) (newer : Name → Enc) : Writing (Enc × Wire × Nat) where
  addr n o := ((Enc.fields k newer).addr n o, Wire.fields.addr n o, o.length)
  num8 v := ((Enc.fields k newer).num8 v, Wire.fields.num8 v, 1)
  num16 v := ((Enc.fields k newer).num16 v, Wire.fields.num16 v, 2)
  num32 v := ((Enc.fields k newer).num32 v, Wire.fields.num32 v, 4)
  typ t := ((Enc.fields k newer).typ t, Wire.fields.typ t, 2)
  str s := ((Enc.fields k newer).str s, Wire.fields.str s, s.length + 1)
  rest s := ((Enc.fields k newer).rest s, Wire.fields.rest s, s.length)
  name n := ((Enc.fields k newer).name n, Wire.fields.name n, n.raw.length)
  newName n := ((Enc.fields k newer).newName n, Wire.fields.newName n, n.raw.length)

theorem bothWays_fst (k : Memory) (newer : Name → Enc) (t : RRType) (vs : List FieldVal) (fs : List (Enc × Wire × Nat)) (h : layout (bothWays k newer) t vs = some fs) :
    layout (Enc.fields k newer) t vs = some (fs.map (·.1)) ∧ layout Wire.fields t vs = some (fs.map (·.2.1)) := by
  unfold layout at h
  split at h
  all_goals first
    | (simp at h; done)
    | (simp only [Option.some.injEq] at h
       subst h
       simp [layout, bothWays, Function.comp_def])

theorem spells_field {k : Memory} (newer : Name → Enc) (hnew : ∀ n : Name, n.WF → Spells (newer n) (NameAt n) n.raw.length) {rd : RData} (h : rd.Fits) :
    ∃ fs, layout (bothWays k newer) rd.kind rd.fields = some fs ∧ (∀ x ∈ fs, Spells x.1 x.2.1 x.2.2) ∧ (fs.map (·.2.2)).sum = rd.size := by
  obtain ⟨ty, vs⟩ := rd
  obtain ⟨cs, hs, hf⟩ := h
  have hsz : (⟨ty, vs⟩ : RData).size = fieldsSize cs vs := by unfold RData.size; rw [hs]
  rw [hsz]
  simp only at hs hf ⊢
  have hty : FieldsShape cs vs := by
    clear hs hsz
    induction cs generalizing vs with
    | nil => cases vs with
      | nil => rfl
      | cons _ _ => exact hf.elim
    | cons c cs ih => cases vs with
      | nil => exact hf.elim
      | cons v vs =>
        refine ⟨v, vs, rfl, ?_, ih vs hf.2⟩
        obtain ⟨c, _⟩ := c
        cases c <;> cases v <;> first | exact hf.1.elim | exact ⟨_, rfl⟩
  have s8 : ∀ v, Spells ((Enc.fields k newer).num8 v) (Wire.fields.num8 v) 1 := fun v => Spells.octets rfl fun _ _ h => h
  have s16 : ∀ v, Spells ((Enc.fields k newer).num16 v) (Wire.fields.num16 v) 2 := fun v => Spells.octets (by simp [be16]) fun _ _ h => h
  have s32 : ∀ v, Spells ((Enc.fields k newer).num32 v) (Wire.fields.num32 v) 4 := fun v => Spells.octets (by simp [be32]) fun _ _ h => h
  have sty : ∀ t : RRType, RRType.new t.as_u16 = t → Spells ((Enc.fields k newer).typ t) (Wire.fields.typ t) 2 :=
    fun t ht => Spells.octets (by simp [be16]) fun _ _ h => ⟨_, ht.symm, h⟩
  have sst : ∀ s : List UInt8, s.length ≤ 255 → Spells ((Enc.fields k newer).str s) (Wire.fields.str s) (s.length + 1) :=
    fun s hs => Spells.octets (by simp [withLen]) fun _ _ h => ⟨hs, h⟩
  have sre : ∀ s : List UInt8, Spells ((Enc.fields k newer).rest s) (Wire.fields.rest s) s.length := fun s => Spells.octets rfl fun _ _ h => h
  have sad : ∀ n (o : List UInt8), o.length = n → Spells ((Enc.fields k newer).addr n o) (Wire.fields.addr n o) o.length :=
    fun n o ho => Spells.octets rfl fun _ _ h => ⟨ho, h⟩
  have sna : ∀ n : Name, (∃ ls, ValidName ls ∧ n = Name.ofLabels ls) → Spells ((Enc.fields k newer).name n) (Wire.fields.name n) n.raw.length := fun n hn => Spells.name hn
  have snn : ∀ n : Name, (∃ ls, ValidName ls ∧ n = Name.ofLabels ls) → Spells ((Enc.fields k newer).newName n) (Wire.fields.newName n) n.raw.length := fun n hn => hnew n hn
  cases ty <;> simp only [schema, Option.some.injEq, reduceCtorEq] at hs <;> subst hs <;>
    · simp only [FieldsShape, FieldShape] at hty
      repeat (obtain ⟨v, vs, rfl, ⟨x, rfl⟩, hty⟩ := hty)
      refine ⟨_, rfl, ?_, ?_⟩
      · simp only [FieldsFit, FieldFits, and_true, true_and] at hf
        simp only [bothWays, List.mem_cons, List.not_mem_nil, or_false, List.mem_map, forall_eq_or_imp, forall_eq]
        first
          | (rintro _ ⟨s, h1, rfl⟩; exact sst s (hf s h1))
          | (repeat' apply And.intro
             all_goals first
               | exact s8 _
               | exact s16 _
               | exact s32 _
               | exact sre _
               | exact sad _ _ hf
               | (refine sna _ ?_; first | exact hf | exact hf.1 | exact hf.2 | exact hf.2.1 | exact hf.2.2.2)
               | (refine snn _ ?_; first | exact hf | exact hf.1 | exact hf.2 | exact hf.2.1 | exact hf.2.2.2)
               | (refine sty _ ?_; first | exact hf | exact hf.1)
               | (refine sst _ ?_; first | exact hf | exact hf.1 | exact hf.2 | exact hf.2.1 | exact hf.2.2.1))
      · simp [bothWays, fieldsSize, FieldVal.size, Function.comp_def]
        try omega

/-- the data of a record -/
theorem spells_data {k : Memory} (newer : Name → Enc) (hnew : ∀ n : Name, n.WF → Spells (newer n) (NameAt n) n.raw.length) {rd : RData} (h : rd.Fits) :
    Spells (rfcData k newer rd) (DataAt rd) rd.size := by
  obtain ⟨fs, h1, h2, h3⟩ := spells_field (k := k) newer hnew h
  obtain ⟨h4, h5⟩ := bothWays_fst k newer _ _ _ h1
  unfold rfcData
  rw [h4, ← h3]
  exact (Spells.all h2).imp fun msg p e h => ⟨_, h5, h⟩

/-! ## records -/

theorem spells_owner {k : Memory} {s : RRset} (h : s.Fits) : Spells (encOwner k s) (fun msg p e => ∃ q, NameAt s.name msg p q ∧
    OctetsAt (be16 s.typ.as_u16 ++ (be16 s.class_.to_u16 ++ be32 s.ttl)) msg q e) (s.name.raw.length + 8) :=
  Spells.seq (Spells.name h.name) (Spells.octets (g := OctetsAt _) (by simp [be16, be32]) fun _ _ h => h) fun _ _ q _ h1 h2 => ⟨q, h1, h2⟩

theorem spells_record {k : Memory} (newer : Name → Enc) (hnew : ∀ n : Name, n.WF → Spells (newer n) (NameAt n) n.raw.length) {s : RRset} (h : s.Fits) {rd : RData}
    (hrd : rd ∈ s.rdatas) : Spells (Enc.seq (encOwner k s) (Enc.measured (rfcData k newer rd))) (RecordAt { s with rdatas := [rd] }) (s.name.raw.length + 8 + (rd.size + 2)) := by
  obtain ⟨h1, h2, h3⟩ := h.data rd hrd
  refine (spells_owner h).seq ((spells_data newer hnew h2).measured h3.2) ?_
  rintro msg p q e ⟨q1, h4, h5⟩ ⟨len, h6, rfl, h7, h8⟩
  have e1 : q = q1 + 8 := by have := h5.1; simpa [be16, be32] using this
  subst e1
  refine ⟨q1, s.typ.as_u16, s.class_.to_u16, len, h4, ?_, h.typ.symm, h.class_.symm, rfl, Or.inr ⟨h7 h3.1, rd, rfl, h1, h8⟩⟩
  rw [OctetsAt.append]
  exact ⟨q1 + 8, by simpa [List.append_assoc] using h5, h6⟩

theorem spells_empty {k : Memory} {s : RRset} (h : s.Fits) (he : s.rdatas = []) : Spells (Enc.seq (encOwner k s) (Enc.octets [0, 0])) (RecordAt s) (s.name.raw.length + 8 + 2) := by
  refine (spells_owner h).seq (Spells.octets (g := OctetsAt [0, 0]) rfl fun _ _ h => h) ?_
  rintro msg p q e ⟨q1, h4, h5⟩ h6
  have e1 : q = q1 + 8 := by have := h5.1; simpa [be16, be32] using this
  subst e1
  have e2 : e = q1 + 10 := h6.1
  subst e2
  refine ⟨q1, s.typ.as_u16, s.class_.to_u16, 0, h4, ?_, h.typ.symm, h.class_.symm, rfl, Or.inl ⟨rfl, h.empty he, he⟩⟩
  rw [OctetsAt.append]
  exact ⟨q1 + 8, by simpa [List.append_assoc] using h5, h6⟩

theorem spells_set {k : Memory} (newer : Name → Enc) (hnew : ∀ n : Name, n.WF → Spells (newer n) (NameAt n) n.raw.length) {s : RRset} (h : s.Fits) :
    Spells (encSetWith k (rfcData k newer) s) (RecordsAt s.records) s.size := by
  unfold encSetWith RRset.records RRset.size
  split
  · rename_i he
    exact (spells_empty h he).imp fun msg p e h => ⟨e, h, rfl⟩
  · have := Spells.all (es := s.rdatas.map fun rd => (Enc.seq (encOwner k s) (Enc.measured (rfcData k newer rd)), RecordAt { s with rdatas := [rd] }, s.name.raw.length + 8 + (rd.size + 2))) (by
      intro x hx
      obtain ⟨rd, hrd, rfl⟩ := List.mem_map.mp hx
      exact spells_record newer hnew h hrd)
    simp only [List.map_map, Function.comp_def] at this
    have e1 : (s.rdatas.map fun rd => s.name.raw.length + 10 + rd.size) = s.rdatas.map fun rd => s.name.raw.length + 8 + (rd.size + 2) := by
      apply List.map_congr_left; intro rd _; omega
    rw [e1]
    unfold RecordsAt
    rw [List.map_map]
    exact this

theorem Wire.all_append (a b : List Wire) (msg : List UInt8) (p e : Nat) : Wire.all (a ++ b) msg p e ↔ ∃ q, Wire.all a msg p q ∧ Wire.all b msg q e := by
  induction a generalizing p with
  | nil => simp [Wire.all]
  | cons w a ih =>
    simp only [List.cons_append, Wire.all, ih]
    constructor
    · rintro ⟨q, h1, r, h2, h3⟩; exact ⟨r, ⟨q, h1, h2⟩, h3⟩
    · rintro ⟨r, ⟨q, h1, h2⟩, h3⟩; exact ⟨q, h1, r, h2, h3⟩

theorem spells_sets {k : Memory} (newer : Name → Enc) (hnew : ∀ n : Name, n.WF → Spells (newer n) (NameAt n) n.raw.length) {sets : List RRset} (h : ∀ s ∈ sets, s.Fits) :
    Spells (Enc.all (sets.map (encSetWith k (rfcData k newer)))) (RecordsAt (sets.flatMap RRset.records)) (sets.map RRset.size).sum := by
  induction sets with
  | nil => exact Spells.octets rfl fun msg p _ => rfl
  | cons s sets ih =>
    refine (spells_set newer hnew (h s (by simp))).seq (ih fun x hx => h x (by simp [hx])) fun msg p q e h1 h2 => ?_
    unfold RecordsAt
    rw [List.flatMap_cons, List.map_append, Wire.all_append]
    exact ⟨q, h1, h2⟩

/-! ## sections -/

theorem RRset.records_ne (s : RRset) : s.records ≠ [] := by
  unfold RRset.records
  split
  · simp
  · simpa using ‹_›

theorem RRset.records_merge {s : RRset} (h : s.name.WF) : Merges s.records s := by
  unfold RRset.records
  split
  · rename_i he
    exact ⟨s, [], rfl, by simp, by cases s; simp⟩
  · rename_i he
    cases hr : s.rdatas with
    | nil => exact absurd hr he
    | cons rd rds =>
      refine ⟨{ s with rdatas := [rd] }, rds.map fun rd => { s with rdatas := [rd] }, rfl, ?_, ?_⟩
      · intro x hx
        obtain ⟨y, _, rfl⟩ := List.mem_map.mp hx
        exact sameOwner_refl (s := s) h
      · have : (List.map (fun rd => { s with rdatas := [rd] }) (rd :: rds)).flatMap RRset.rdatas = rd :: rds := by
          rw [List.flatMap_map]
          show (rd :: rds).flatMap (fun x => [x]) = _
          rw [List.flatMap_singleton']
        rw [this, ← hr]

theorem records_grouped {sets : List RRset} (h : ∀ s ∈ sets, s.Fits) (hn : NoNeighbours sets) : Grouped (sets.flatMap RRset.records) sets := by
  refine ⟨⟨sets.map RRset.records, List.flatMap_def.symm, ?_⟩, hn⟩
  clear hn
  induction sets with
  | nil => exact .nil
  | cons s sets ih => exact .cons (RRset.records_merge (h s (by simp)).name) (ih fun x hx => h x (by simp [hx]))

theorem RRset.records_key (s : RRset) : ∀ x ∈ s.records, x.typ = s.typ ∧ x.name = s.name := by
  intro x hx
  unfold RRset.records at hx
  split at hx
  · simp only [List.mem_singleton] at hx; subst hx; exact ⟨rfl, rfl⟩
  · obtain ⟨y, _, rfl⟩ := List.mem_map.mp hx; exact ⟨rfl, rfl⟩

theorem optApart_cons {s : RRset} {l : List RRset} (h : OptApart l) (h1 : ∀ t, l.head? = some t → ¬ (t.typ = .OPT ∧ t.SameOwner s)) : OptApart (s :: l) := by
  cases l with
  | nil => trivial
  | cons t l => exact ⟨h1 t rfl, h⟩

theorem optApart_append {a b : List RRset} (ha : ∀ x ∈ a, x.typ ≠ .OPT) (hb : OptApart b)
    (h1 : ∀ x ∈ a, ∀ t, b.head? = some t → ¬ (t.typ = .OPT ∧ t.SameOwner x)) : OptApart (a ++ b) := by
  induction a with
  | nil => exact hb
  | cons x a ih =>
    refine optApart_cons (ih (fun y hy => ha y (by simp [hy])) fun y hy => h1 y (by simp [hy])) ?_
    intro t ht
    cases a with
    | nil => exact h1 x (by simp) t ht
    | cons y a =>
      obtain rfl : y = t := by simpa using ht
      exact fun h => ha y (by simp) h.1

theorem records_optApart {sets : List RRset} (h : ∀ s ∈ sets, s.Fits) (hn : NoNeighbours sets) (ho : ∀ s ∈ sets, s.typ = .OPT → s.rdatas.length ≤ 1) :
    OptApart (sets.flatMap RRset.records) := by
  induction sets with
  | nil => trivial
  | cons s sets ih =>
    rw [List.flatMap_cons]
    have hn' : NoNeighbours sets := by
      cases sets with
      | nil => trivial
      | cons t sets => exact hn.2
    have hb := ih (fun x hx => h x (by simp [hx])) hn' fun x hx => ho x (by simp [hx])
    have hjoin : ∀ x ∈ s.records, ∀ t, (sets.flatMap RRset.records).head? = some t → ¬ (t.typ = .OPT ∧ t.SameOwner x) := by
      rintro x hx t ht ⟨_, h2⟩
      cases sets with
      | nil => simp at ht
      | cons u sets =>
        rw [List.flatMap_cons] at ht
        have hu := u.records_ne
        cases hr : u.records with
        | nil => exact hu hr
        | cons v vs =>
          rw [hr] at ht
          simp only [List.cons_append, List.head?_cons, Option.some.injEq] at ht
          subst ht
          have k1 := s.records_key x hx
          have k2 := u.records_key v (by rw [hr]; simp)
          refine hn.1 (sameOwner_comm.mp ⟨?_, ?_⟩)
          · rw [← k1.1, ← k2.1]; exact h2.1
          · rw [← k1.2, ← k2.2]; exact h2.2
    by_cases ht : s.typ = .OPT
    · have hlen := ho s (by simp) ht
      have : ∃ x, s.records = [x] := by
        unfold RRset.records
        split
        · exact ⟨_, rfl⟩
        · cases hr : s.rdatas with
          | nil => exact absurd hr ‹_›
          | cons rd rds =>
            rw [hr] at hlen
            cases rds with
            | nil => exact ⟨_, rfl⟩
            | cons _ _ => simp at hlen
      obtain ⟨x, hx⟩ := this
      rw [hx] at hjoin ⊢
      exact optApart_cons hb (hjoin x (by simp))
    · exact optApart_append (fun x hx => by rw [(s.records_key x hx).1]; exact ht) hb hjoin

theorem spells_section {k : Memory} (newer : Name → Enc) (hnew : ∀ n : Name, n.WF → Spells (newer n) (NameAt n) n.raw.length) {t : SectionType} {s : Section} (h : SectionFits t s) :
    Spells (encSectionWith k (rfcData k newer) s) (SectionAt t (Section.records s).length s) (Section.size s) := by
  unfold encSectionWith
  cases s with
  | none => exact Spells.octets rfl fun msg p _ => Or.inl ⟨rfl, rfl, rfl⟩
  | some sets =>
    obtain ⟨h1, h2, h3, h4, h5⟩ := h
    refine (spells_sets newer hnew h2).imp fun msg p e h6 => Or.inr ?_
    have hg := records_grouped h2 h3
    have ho := records_optApart h2 h3 h5
    show ∃ first rest sets', (sets.flatMap RRset.records).length = _ ∧ _
    cases hr : sets.flatMap RRset.records with
    | nil =>
      exfalso
      cases sets with
      | nil => exact h1 rfl
      | cons x sets =>
        rw [List.flatMap_cons] at hr
        exact x.records_ne (List.append_eq_nil_iff.mp hr).1
    | cons f rest =>
      rw [hr] at h6 hg ho
      refine ⟨f, rest, sets, rfl, h6, hg, rfl, fun hf => ?_, ho⟩
      cases sets with
      | nil => simp at hr
      | cons x sets =>
        refine h4 x rfl ?_
        rw [List.flatMap_cons] at hr
        cases hx : x.records with
        | nil => exact absurd hx x.records_ne
        | cons y ys =>
          rw [hx] at hr
          simp only [List.cons_append, List.cons.injEq] at hr
          obtain ⟨rfl, _⟩ := hr
          rw [← (x.records_key y (by rw [hx]; simp)).1]; exact hf


/-! ## messages -/

theorem spells_header {h : Header} (hf : h.flag &&& 0x87b0 = h.flag) : Spells (encHeader h) (HeaderAt h) 12 := by
  refine Spells.octets (by simp [be16]) fun msg p h1 => ⟨h.header_flag, h1, ?_, ?_, ?_⟩
  · rw [← opcode_bits]; exact (Header.flag_parts h).2.1.symm
  · rw [← rcode_bits]; exact (Header.flag_parts h).2.2.symm
  · exact hf.symm.trans (Header.flag_parts h).1.symm

theorem spells_question {k : Memory} {q : Question} (h : q.Fits) : Spells (encQuestion k q) (QuestionAt q) (q.name.raw.length + 4) :=
  Spells.seq (Spells.name h.1) (Spells.octets (g := OctetsAt _) (by simp [be16]) fun _ _ h => h) fun _ _ q1 _ h1 h2 => ⟨q1, _, _, h1, h2, h.2.1.symm, h.2.2.symm⟩

/-- a message that fits is spelled, whichever way names in newer types are written -/
theorem spells_message {k : Memory} (newer : Name → Enc) (hnew : ∀ n : Name, n.WF → Spells (newer n) (NameAt n) n.raw.length) {m : Response} (hm : m.Fits) (tail : List UInt8) :
    MessageAt m ((encMessageWith k (rfcData k newer) m [] 0).1 ++ tail) ∧ (encMessageWith k (rfcData k newer) m [] 0).1.length ≤ m.size := by
  have hs := ((spells_header hm.flag).seq (spells_question (k := k) hm.question) (l := fun msg p e => HeaderAt m.header msg p (p + 12) ∧ QuestionAt m.question msg (p + 12) e)
    fun msg p q e h1 h2 => by obtain rfl : q = p + 12 := header_len h1; exact ⟨h1, h2⟩).seq
    ((spells_section (k := k) newer hnew hm.answer).seq ((spells_section (k := k) newer hnew hm.authority).seq (spells_section (k := k) newer hnew hm.additional)
      (l := fun msg p e => ∃ q, SectionAt .Authority (Section.records m.authority).length m.authority msg p q ∧
        SectionAt .Additional (Section.records m.additional).length m.additional msg q e) fun msg p q e h1 h2 => ⟨q, h1, h2⟩)
      (l := fun msg p e => ∃ q r, SectionAt .Answer (Section.records m.answer).length m.answer msg p q ∧ SectionAt .Authority (Section.records m.authority).length m.authority msg q r ∧
        SectionAt .Additional (Section.records m.additional).length m.additional msg r e) fun msg p q e h1 ⟨r, h2, h3⟩ => ⟨q, r, h1, h2, h3⟩)
    (l := fun msg p e => ∃ q r s, HeaderAt m.header msg p (p + 12) ∧ QuestionAt m.question msg (p + 12) q ∧
      SectionAt .Answer (Section.records m.answer).length m.answer msg q r ∧ SectionAt .Authority (Section.records m.authority).length m.authority msg r s ∧
        SectionAt .Additional (Section.records m.additional).length m.additional msg s e) fun msg p q e ⟨h0, h1⟩ ⟨r, s, h2, h3, h4⟩ => ⟨q, r, s, h0, h1, h2, h3, h4⟩
  obtain ⟨_, h1, h2, _⟩ := hs [] [] (fun x hx => by simp at hx)
  refine ⟨?_, h2⟩
  obtain ⟨q, r, s, a0, a1, a2, a3, a4⟩ := h1 tail
  refine ⟨q, r, s, 0 + (encMessageWith k (rfcData k newer) m [] 0).1.length, a0, hm.qd, a1, ?_, ?_, ?_⟩
  · rw [hm.an]; exact a2
  · rw [hm.ns]; exact a3
  · rw [hm.ar]; exact a4

end R53
