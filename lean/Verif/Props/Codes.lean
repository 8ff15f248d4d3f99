import Verif.Proofs.FlagWord
import Verif.Props.Render
/-!
# C30–C35: codes and headers
-/
namespace R53

/-! ## C30 -/

theorem c30_type_number (v : UInt16) : (RRType.new v).as_u16 = v := RRType.as_u16_new v
theorem c30_class_number (v : UInt16) : (RRClass.new v).to_u16 = v := RRClass.to_u16_new v

theorem c30_type_injective (v w : UInt16) (h : RRType.new v = RRType.new w) : v = w := by
  rw [← RRType.as_u16_new v, h, RRType.as_u16_new]
theorem c30_class_injective (v w : UInt16) (h : RRClass.new v = RRClass.new w) : v = w := by
  rw [← RRClass.to_u16_new v, h, RRClass.to_u16_new]

/-- a number is known exactly if it is in the assigned table, and then it is the value its mnemonic parses to -/
theorem c30_type_assigned (v : UInt16) :
    (v.toNat ∉ ianaTypes.map (·.1) → RRType.new v = .Unknown v) ∧
    (∀ m, (v.toNat, m) ∈ ianaTypes → RRType.from_str (ascii m) = .ok (RRType.new v) ∧ RRType.new v ≠ .Unknown v) := by
  constructor
  · intro h
    have hne : ∀ k : UInt16, k.toNat ∈ ianaTypes.map (·.1) → v ≠ k := fun k hk he => h (he ▸ hk)
    unfold RRType.new
    repeat rw [if_neg (hne _ (by decide))]
  · intro m hm
    have hv : v = UInt16.ofNat v.toNat := by simp
    have all : ∀ x ∈ ianaTypes, RRType.from_str (ascii x.2) = .ok (RRType.new (UInt16.ofNat x.1)) ∧
        RRType.new (UInt16.ofNat x.1) ≠ .Unknown (UInt16.ofNat x.1) := by decide +kernel
    have := all _ hm
    simp only [← hv] at this
    exact this

theorem c30_class_assigned (v : UInt16) :
    (v.toNat ∉ ianaClasses.map (·.1) → RRClass.new v = .Unknown v) ∧
    (∀ m, (v.toNat, m) ∈ ianaClasses → RRClass.from_str (ascii m) = .ok (RRClass.new v) ∧ RRClass.new v ≠ .Unknown v) := by
  constructor
  · intro h
    have hne : ∀ k : UInt16, k.toNat ∈ ianaClasses.map (·.1) → v ≠ k := fun k hk he => h (he ▸ hk)
    unfold RRClass.new
    repeat rw [if_neg (hne _ (by decide))]
  · intro m hm
    have hv : v = UInt16.ofNat v.toNat := by simp
    have all : ∀ x ∈ ianaClasses, RRClass.from_str (ascii x.2) = .ok (RRClass.new (UInt16.ofNat x.1)) ∧
        RRClass.new (UInt16.ofNat x.1) ≠ .Unknown (UInt16.ofNat x.1) := by decide +kernel
    have := all _ hm
    simp only [← hv] at this
    exact this

/-- `w` appends octets to the message of `r` (or fails, appending at most some), and if it succeeds `rd` reads `a`
back from there and stops at the end of what was written, whatever is appended later -/
structure WritesBack {α : Type} (r : Render) (w : St Render Unit) (rd : St InBuf α) (a : α) : Prop where
  total : (w r).1 ≠ .panic
  append : ∃ d, (w r).2.data = r.data ++ d
  capacity : (w r).2.data.length ≤ r.buffer.capacity
  back : (w r).1 = .ok () → ∀ tail, rd ⟨(w r).2.data ++ tail, r.data.length⟩ =
    (.ok a, ⟨(w r).2.data ++ tail, (w r).2.data.length⟩)

theorem Emits.writesBack {α : Type} {w : St Render Unit} {rd : St InBuf α} {a : α} (he : Emits w rd a) {r : Render} {g : Mem}
    (hr : RInv r g) : WritesBack r w rd a := by
  have hl : r.data.length = r.buffer.len := OutBuf.contents_length hr.buf
  rcases he r g hr with ⟨r', out, h1, h2, h3⟩ | ⟨r', h1, h2⟩
  · rw [show WritesBack r w rd a = WritesBack r w rd a from rfl]
    have hl' : r'.data.length = r.buffer.len + out.length := by rw [h2.data, List.length_append, hl]
    refine ⟨by rw [h1]; simp, ⟨out, by rw [h1]; exact h2.data⟩, by rw [h1, hl']; exact h2.fit, fun _ tail => ?_⟩
    rw [h1, hl, hl']
    exact h3 _ (Mem.le_append (by exact h2.inv.mem) tail) (by rw [List.length_append, hl']; omega)
  · refine ⟨by rw [h1]; simp, by rw [h1]; exact h2.data, ?_, fun h => by rw [h1] at h; simp at h⟩
    obtain ⟨g', _, hi⟩ := h2.inv
    rw [h1, Render.data, OutBuf.contents_length hi.buf, ← h2.cap]; exact hi.buf

theorem c30_type_wire {backing : List UInt8} {h : Hist} (hr : Reached backing h) (v : UInt16) :
    WritesBack h.r (RRType.new v).to_wire RRType.from_wire (RRType.new v) ∧
    ((RRType.new v).to_wire h.r = Render.write_u16 v h.r) := by
  obtain ⟨g, h1, _⟩ := hr.hinv.inv
  exact ⟨(emits_rrtype (RRType.new_canonical v)).writesBack h1, by rw [RRType.to_wire, RRType.as_u16_new]⟩

theorem c30_class_wire {backing : List UInt8} {h : Hist} (hr : Reached backing h) (v : UInt16) :
    WritesBack h.r (RRClass.new v).to_wire RRClass.from_wire (RRClass.new v) ∧
    ((RRClass.new v).to_wire h.r = Render.write_u16 v h.r) := by
  obtain ⟨g, h1, _⟩ := hr.hinv.inv
  exact ⟨(emits_rrclass (RRClass.new_canonical v)).writesBack h1, by rw [RRClass.to_wire, RRClass.to_u16_new]⟩

example : RRType.new 257 = .CAA ∧ RRType.new 3 = .Unknown 3 := by decide +kernel

/-! ## C31 -/

theorem lower_ascii (c : UInt8) : (lowerByte c).toNat < 0x80 ↔ c.toNat < 0x80 := by
  revert c; apply forall_u8'; decide +kernel
theorem upperByte_lower (c : UInt8) : upperByte (lowerByte c) = upperByte c := by
  revert c; apply forall_u8'; decide +kernel

theorem toUppercase_ascii {s : List UInt8} (h : ∀ c ∈ s, c.toNat < 0x80) : toUppercase s = s.map upperByte := by
  have key : ∀ (s : List UInt8) (n : Nat), s.length ≤ n → (∀ c ∈ s, c.toNat < 0x80) → upperGo n s = s.map upperByte := by
    intro s
    induction s with
    | nil => intro n _ _; cases n <;> rfl
    | cons c s ih =>
      intro n hn h
      match n, hn with
      | n + 1, hn =>
        rw [upperGo, if_pos (h c (by simp)), List.map_cons, ih n (by simpa using hn) (fun x hx => h x (by simp [hx]))]
  exact key s _ (Nat.le_refl _) h

/-- ASCII texts that agree up to case have the same upper case -/
theorem toUppercase_congr {s t : List UInt8} (ht : ∀ c ∈ t, c.toNat < 0x80) (h : s.map lowerByte = t.map lowerByte) :
    toUppercase s = toUppercase t := by
  have key : ∀ x : List UInt8, x.map upperByte = (x.map lowerByte).map upperByte := by
    intro x; simp [upperByte_lower]
  have hs : ∀ c ∈ s, c.toNat < 0x80 := by
    intro c hc
    have : lowerByte c ∈ t.map lowerByte := by rw [← h]; exact List.mem_map_of_mem hc
    obtain ⟨d, hd, e⟩ := List.mem_map.mp this
    rw [← lower_ascii, ← e, lower_ascii]; exact ht d hd
  rw [toUppercase_ascii hs, toUppercase_ascii ht, key s, key t, h]

/-- the type is one of the named ones -/
def RRType.Named (t : RRType) : Prop := ∀ v, t ≠ .Unknown v
def RRClass.Named (c : RRClass) : Prop := ∀ v, c ≠ .Unknown v

theorem type_from_str_congr {s t : List UInt8} (ht : ∀ c ∈ t, c.toNat < 0x80) (h : s.map lowerByte = t.map lowerByte) : RRType.from_str s = RRType.from_str t := by
  unfold RRType.from_str; rw [toUppercase_congr ht h]
theorem class_from_str_congr {s t : List UInt8} (ht : ∀ c ∈ t, c.toNat < 0x80) (h : s.map lowerByte = t.map lowerByte) : RRClass.from_str s = RRClass.from_str t := by
  unfold RRClass.from_str; rw [toUppercase_congr ht h]
theorem rcode_from_str_congr {s t : List UInt8} (ht : ∀ c ∈ t, c.toNat < 0x80) (h : s.map lowerByte = t.map lowerByte) : Rcode.from_str s = Rcode.from_str t := by
  unfold Rcode.from_str; rw [toUppercase_congr ht h]

/-- parsing the printed mnemonic in any letter case; missing: `CERT`, see `c31_cert_violated` -/
theorem c31_type_partial (t : RRType) (hn : t.Named) (hc : t ≠ .CERT) (s : List UInt8)
    (hs : s.map lowerByte = t.to_str.map lowerByte) : RRType.from_str s = .ok t := by
  rw [type_from_str_congr (by cases t <;> first | decide +kernel | exact absurd rfl (hn _)) hs]
  cases t <;> first | decide +kernel | exact absurd rfl hc | exact absurd rfl (hn _)

/-- the code prints `CERT` as "URI", so it parses back as a different type and two types print alike -/
theorem c31_cert_violated : RRType.from_str RRType.CERT.to_str = .ok .URI ∧ RRType.CERT.to_str = RRType.URI.to_str ∧
    RRType.CERT ≠ RRType.URI := by decide +kernel

theorem c31_type_distinct_partial (t u : RRType) (ht : t.Named) (hu : u.Named) (hc : t ≠ .CERT) (hd : u ≠ .CERT)
    (h : t.to_str = u.to_str) : t = u := by
  have h1 := c31_type_partial t ht hc t.to_str rfl
  have h2 := c31_type_partial u hu hd u.to_str rfl
  rw [h, h2] at h1
  simpa using h1.symm

theorem c31_class (c : RRClass) (hn : c.Named) (s : List UInt8) (hs : s.map lowerByte = c.to_str.map lowerByte) :
    RRClass.from_str s = .ok c := by
  rw [class_from_str_congr (by cases c <;> first | decide +kernel | exact absurd rfl (hn _)) hs]
  cases c <;> first | decide +kernel | exact absurd rfl (hn _)

theorem c31_class_distinct (c d : RRClass) (hc : c.Named) (hd : d.Named) (h : c.to_str = d.to_str) : c = d := by
  have h1 := c31_class c hc c.to_str rfl
  have h2 := c31_class d hd d.to_str rfl
  rw [h, h2] at h1
  simpa using h1.symm

theorem c31_rcode (c : Rcode) (s : List UInt8) (hs : s.map lowerByte = c.to_str.map lowerByte) : Rcode.from_str s = .ok c := by
  rw [rcode_from_str_congr (by cases c <;> decide +kernel) hs]
  cases c <;> decide +kernel

theorem c31_rcode_distinct (c d : Rcode) (h : c.to_str = d.to_str) : c = d := by
  have h1 := c31_rcode c c.to_str rfl
  have h2 := c31_rcode d d.to_str rfl
  rw [h, h2] at h1
  simpa using h1.symm

theorem from_str_type_inv (s : List UInt8) (t : RRType) (h : RRType.from_str s = .ok t) :
    t.Named ∧ (t = .CERT → toUppercase s = ascii "CERT") ∧ (t ≠ .CERT → toUppercase s = t.to_str) := by
  unfold RRType.from_str at h
  simp only at h
  have step : ∀ {c : Prop} [Decidable c] {x : RRType} {e : Res RRType}, (if c then Res.ok x else e) = .ok t → (c ∧ x = t) ∨ e = .ok t := by
    intro c _ x e h
    split at h
    · exact Or.inl ⟨‹_›, by simpa using h⟩
    · exact Or.inr h
  iterate 26
    rcases step h with ⟨h1, rfl⟩ | h
    · exact ⟨fun v => by simp, (fun h => by first | exact h1 | cases h), (fun h => by first | exact h1 | exact absurd rfl h)⟩
  simp at h

theorem from_str_class_inv (s : List UInt8) (t : RRClass) (h : RRClass.from_str s = .ok t) :
    t.Named ∧ toUppercase s = t.to_str := by
  unfold RRClass.from_str at h
  simp only at h
  have step : ∀ {c : Prop} [Decidable c] {x : RRClass} {e : Res RRClass}, (if c then Res.ok x else e) = .ok t → (c ∧ x = t) ∨ e = .ok t := by
    intro c _ x e h
    split at h
    · exact Or.inl ⟨‹_›, by simpa using h⟩
    · exact Or.inr h
  repeat
    rcases step h with ⟨h1, rfl⟩ | h
    · exact ⟨fun v => by simp, h1⟩
  simp at h

theorem from_str_rcode_inv (s : List UInt8) (t : Rcode) (h : Rcode.from_str s = .ok t) : toUppercase s = t.to_str := by
  unfold Rcode.from_str at h
  simp only at h
  have step : ∀ {c : Prop} [Decidable c] {x : Rcode} {e : Res Rcode}, (if c then Res.ok x else e) = .ok t → (c ∧ x = t) ∨ e = .ok t := by
    intro c _ x e h
    split at h
    · exact Or.inl ⟨‹_›, by simpa using h⟩
    · exact Or.inr h
  repeat
    rcases step h with ⟨h1, rfl⟩ | h
    · exact h1
  simp at h

theorem upper_lower {s t : List UInt8} (hs : ∀ c ∈ s, c.toNat < 0x80) (h : toUppercase s = t) (ht : t.map upperByte = t) :
    s.map lowerByte = t.map lowerByte := by
  rw [toUppercase_ascii hs] at h
  have key : ∀ c : UInt8, lowerByte (upperByte c) = lowerByte c := by apply forall_u8'; decide +kernel
  rw [← h, List.map_map]
  apply List.map_congr_left
  intro c _; exact (key c).symm

/-- in ASCII nothing but a mnemonic is accepted, in any letter case; missing: texts outside ASCII, see `c31_unicode_violated` -/
theorem c31_only_mnemonics_partial (s : List UInt8) (hs : ∀ c ∈ s, c.toNat < 0x80) :
    (∀ t, RRType.from_str s = .ok t → t.Named ∧ s.map lowerByte = (if t = .CERT then ascii "CERT" else t.to_str).map lowerByte) ∧
    (∀ c, RRClass.from_str s = .ok c → c.Named ∧ s.map lowerByte = c.to_str.map lowerByte) ∧
    (∀ c, Rcode.from_str s = .ok c → s.map lowerByte = c.to_str.map lowerByte) := by
  refine ⟨fun t h => ?_, fun c h => ?_, fun c h => ?_⟩
  · obtain ⟨h1, h2, h3⟩ := from_str_type_inv s t h
    refine ⟨h1, ?_⟩
    by_cases hc : t = .CERT
    · rw [if_pos hc]; exact upper_lower hs (h2 hc) (by decide +kernel)
    · rw [if_neg hc]; exact upper_lower hs (h3 hc) (by cases t <;> first | decide +kernel | exact absurd rfl (h1 _))
  · obtain ⟨h1, h2⟩ := from_str_class_inv s c h
    exact ⟨h1, upper_lower hs h2 (by cases c <;> first | decide +kernel | exact absurd rfl (h1 _))⟩
  · exact upper_lower hs (from_str_rcode_inv s c h) (by cases c <;> decide +kernel)

/-- `nſ` (with U+017F) is read as NS and `ın` (with U+0131) as class IN, though they are not mnemonics in any letter case -/
theorem c31_unicode_violated : RRType.from_str [110, 0xC5, 0xBF] = .ok .NS ∧ RRClass.from_str [0xC4, 0xB1, 110] = .ok .IN := by
  decide +kernel

example : RRType.from_str (ascii "Nsec3Param") = .ok .NSEC3PARAM := by decide +kernel

/-! ## C32 -/

/-- the order of two types is the order of their numbers; for types as decoded from numbers it agrees with `==`.
Missing: `Unknown(n)` of an assigned `n`, see `c32_unknown_violated` -/
theorem c32_partial (v w : UInt16) :
    ((RRType.new v).cmp (RRType.new w) = .eq ↔ RRType.new v = RRType.new w) ∧
    ((RRType.new v).cmp (RRType.new w) = .lt ↔ v.toNat < w.toNat) ∧
    ((RRType.new v).cmp (RRType.new w) = .gt ↔ w.toNat < v.toNat) := by
  unfold RRType.cmp
  rw [RRType.as_u16_new, RRType.as_u16_new]
  refine ⟨?_, Nat.compare_eq_lt, Nat.compare_eq_gt⟩
  rw [Nat.compare_eq_eq, UInt16.toNat_inj]
  exact ⟨fun h => by rw [h], c30_type_injective v w⟩

/-- all types, the public constructor `Unknown(n)` of every `n` included: the order is that of the numbers, and two types of one number are `==` unless one is `Unknown` of
it and the other the named one -/
theorem c32_exact (t u : RRType) : t.cmp u = compare t.as_u16.toNat u.as_u16.toNat ∧
    (t = u ↔ t.cmp u = .eq ∧ ((∃ n, t = .Unknown n) ↔ ∃ n, u = .Unknown n)) := by
  refine ⟨rfl, fun h => ?_, fun ⟨h1, h2⟩ => ?_⟩
  · subst h; exact ⟨Nat.compare_eq_eq.2 rfl, Iff.rfl⟩
  · have h1 : t.as_u16 = u.as_u16 := UInt16.toNat_inj.1 (Nat.compare_eq_eq.1 h1)
    by_cases ht : ∃ n, t = .Unknown n
    · obtain ⟨k, rfl⟩ := h2.1 ht
      obtain ⟨n, rfl⟩ := ht
      exact congrArg RRType.Unknown h1
    · have hu : ¬ ∃ n, u = .Unknown n := fun h => ht (h2.2 h)
      have e : ∀ t : RRType, (¬ ∃ n, t = .Unknown n) → RRType.new t.as_u16 = t := by
        intro t h; cases t <;> first | decide +kernel | exact absurd ⟨_, rfl⟩ h
      rw [← e t ht, ← e u hu, h1]

/-- every named type is decoded from a number, so the theorem above covers all of them -/
theorem c32_named_covered (t : RRType) (h : t.Named) : RRType.new t.as_u16 = t := by
  cases t <;> first | decide +kernel | exact absurd rfl (h _)

/-- the public constructor `Unknown(1)` compares Equal to `A` but is not `==` to it -/
theorem c32_unknown_violated : (RRType.Unknown 1).cmp .A = .eq ∧ RRType.Unknown 1 ≠ .A := by decide +kernel

/-! ## C33 -/

theorem c33_opcode (v : UInt8) :
    (∀ m, (v.toNat, m) ∈ ianaOpcodes → (Opcode.new v).to_u8 = v ∧ Opcode.new v ≠ .Reserved ∧ (Opcode.new v).to_str = ascii m) ∧
    (v.toNat ∉ ianaOpcodes.map (·.1) → Opcode.new v = .Reserved) := by
  constructor
  · intro m hm
    have all : ∀ x ∈ ianaOpcodes, (Opcode.new (UInt8.ofNat x.1)).to_u8 = UInt8.ofNat x.1 ∧ Opcode.new (UInt8.ofNat x.1) ≠ .Reserved ∧
        (Opcode.new (UInt8.ofNat x.1)).to_str = ascii x.2 := by decide +kernel
    have := all _ hm
    simpa using this
  · revert v; apply forall_u8'; decide +kernel

theorem c33_rcode (v : UInt8) :
    (∀ m, (v.toNat, m) ∈ ianaRcodes → (Rcode.new v).to_u8 = v ∧ Rcode.new v ≠ .Reserved ∧ (Rcode.new v).to_str = ascii m) ∧
    (v.toNat ∉ ianaRcodes.map (·.1) → Rcode.new v = .Reserved) := by
  constructor
  · intro m hm
    have all : ∀ x ∈ ianaRcodes, (Rcode.new (UInt8.ofNat x.1)).to_u8 = UInt8.ofNat x.1 ∧ Rcode.new (UInt8.ofNat x.1) ≠ .Reserved ∧
        (Rcode.new (UInt8.ofNat x.1)).to_str = ascii x.2 := by decide +kernel
    have := all _ hm
    simpa using this
  · revert v; apply forall_u8'; decide +kernel

/-- every code, `Reserved` included, survives its number -/
theorem c33_code_number (o : Opcode) (c : Rcode) : Opcode.new o.to_u8 = o ∧ Rcode.new c.to_u8 = c := by
  cases o <;> cases c <;> decide +kernel

/-! ## C35 -/

/-- one flag is written, all others and all other fields keep their value -/
theorem c35_set_flag (h : Header) (f : HeaderFlag) (b : Bool) :
    (∀ f', (h.set_flag f b).is_flag_set f' = if f' = f then b else h.is_flag_set f') ∧
    (h.set_flag f b).opcode = h.opcode ∧ (h.set_flag f b).rcode = h.rcode ∧ (h.set_flag f b).id = h.id ∧
    (h.set_flag f b).qd_count = h.qd_count ∧ (h.set_flag f b).an_count = h.an_count ∧
    (h.set_flag f b).ns_count = h.ns_count ∧ (h.set_flag f b).ar_count = h.ar_count := by
  refine ⟨?_, by cases b <;> exact ⟨rfl, rfl, rfl, rfl, rfl, rfl, rfl⟩⟩
  intro f'
  cases b
  · simp only [Header.set_flag, Header.is_flag_set, HeaderFlag.clear_flag, HeaderFlag.is_flag_set, Bool.false_eq_true, if_false]
    rw [UInt16.and_assoc]
    cases f <;> cases f' <;> first
      | (rw [show ∀ a : UInt16, (~~~ a &&& a) = 0 from by intro a; simp]; simp)
      | rfl
  · simp only [Header.set_flag, Header.is_flag_set, HeaderFlag.set_flag, HeaderFlag.is_flag_set, if_true]
    rw [u16_and_or]
    by_cases he : f' = f
    · rw [if_pos he, he]
      simp only [bne_iff_ne, ne_eq]
      intro hz
      have := congrArg UInt16.toNat hz
      rw [UInt16.toNat_or] at this
      have h2 : (f.flag_mask &&& f.flag_mask).toNat ≠ 0 := by cases f <;> decide +kernel
      have h3 : (f.flag_mask &&& f.flag_mask).toNat ≤ (h.flag &&& f.flag_mask).toNat ||| (f.flag_mask &&& f.flag_mask).toNat := Nat.right_le_or
      have h4 : (0 : UInt16).toNat = 0 := rfl
      omega
    · rw [if_neg he]
      have : f.flag_mask &&& f'.flag_mask = 0 := by
        cases f <;> cases f' <;> first | exact absurd rfl he | decide +kernel
      rw [this]; simp

/-- `setted_flags` lists exactly the flags that are set, each once -/
theorem c35_setted_flags (h : Header) : (∀ f, f ∈ h.setted_flags ↔ h.is_flag_set f = true) ∧ h.setted_flags.Nodup := by
  constructor
  · intro f
    simp only [Header.setted_flags, HeaderFlag.setted_flags, Header.is_flag_set, List.mem_filter]
    refine ⟨fun h => h.2, fun h => ⟨by cases f <;> simp, h⟩⟩
  · exact List.Nodup.sublist List.filter_sublist (by decide)

/-- `clear` removes every flag, the id and the counts, and keeps opcode and rcode -/
theorem c35_clear (h : Header) : (∀ f, h.clear.is_flag_set f = false) ∧ h.clear.setted_flags = [] ∧ h.clear.id = 0 ∧ h.clear.qd_count = 0 ∧
    h.clear.an_count = 0 ∧ h.clear.ns_count = 0 ∧ h.clear.ar_count = 0 ∧ h.clear.opcode = h.opcode ∧ h.clear.rcode = h.rcode := by
  refine ⟨fun f => ?_, ?_, rfl, rfl, rfl, rfl, rfl, rfl, rfl⟩
  · show HeaderFlag.is_flag_set 0 f = false
    cases f <;> decide +kernel
  · show HeaderFlag.setted_flags 0 = []
    decide +kernel

example : ((Header.default 7).set_flag .Truncation true).setted_flags = [.Truncation] := by decide +kernel

/-! ## C34 -/

/-- all the flags a header may carry, as one word -/
def flagBits : UInt16 := 0x87b0

theorem header_flags_kept (h : Header) (f : HeaderFlag) : h.masked.is_flag_set f = h.is_flag_set f := by
  simp only [Header.masked, Header.is_flag_set, HeaderFlag.is_flag_set]
  rw [UInt16.and_assoc]
  cases f <;> rfl

/-- a header written at the end of any message reads back with every field and flag; equal as a whole if only the
seven flags are set in the flag word -/
theorem c34_write_read {backing : List UInt8} {h : Hist} (hr : Reached backing h) (hd : Header) :
    ∃ hd', WritesBack h.r hd.to_wire Header.from_wire hd' ∧
      hd'.id = hd.id ∧ hd'.opcode = hd.opcode ∧ hd'.rcode = hd.rcode ∧ (∀ f, hd'.is_flag_set f = hd.is_flag_set f) ∧
      hd'.qd_count = hd.qd_count ∧ hd'.an_count = hd.an_count ∧ hd'.ns_count = hd.ns_count ∧ hd'.ar_count = hd.ar_count ∧
      (hd.flag &&& flagBits = hd.flag → hd' = hd) := by
  obtain ⟨g, h1, _⟩ := hr.hinv.inv
  refine ⟨hd.masked, (Header.emits_header hd).writesBack h1, rfl, rfl, rfl, header_flags_kept hd, rfl, rfl, rfl, rfl, fun hf => ?_⟩
  obtain ⟨a, b, c, d, e, f, i, j⟩ := hd
  simp only [Header.masked]
  rw [show HEADERFLAG_MASK = flagBits from rfl, hf]

/-- flags set one by one on a cleared word are within the seven flags -/
theorem c34_flag_bits (h : Header) (hf : h.flag &&& flagBits = h.flag) (f : HeaderFlag) (b : Bool) :
    (h.set_flag f b).flag &&& flagBits = (h.set_flag f b).flag := by
  cases b
  · simp only [Header.set_flag, HeaderFlag.clear_flag, Bool.false_eq_true, if_false]
    rw [UInt16.and_assoc, UInt16.and_comm (~~~ _), ← UInt16.and_assoc, hf]
  · simp only [Header.set_flag, HeaderFlag.set_flag, if_true]
    rw [u16_and_or, hf]
    cases f <;> rfl

/-- with room for twelve octets it succeeds and writes exactly twelve -/
theorem c34_twelve_octets {backing : List UInt8} {h : Hist} (hr : Reached backing h) (hd : Header)
    (hroom : h.r.data.length + 12 ≤ backing.length) :
    (hd.to_wire h.r).1 = .ok () ∧ (hd.to_wire h.r).2.data.length = h.r.data.length + 12 := by
  obtain ⟨g, h1, _⟩ := hr.hinv.inv
  have hl : h.r.data.length = h.r.buffer.len := OutBuf.contents_length h1.buf
  rw [← hr.capacity, hl] at hroom
  have hok : (hd.to_wire h.r).1 = .ok () := by
    have w : ∀ (v : UInt16) (r : Render) (k : St Render Unit), r.buffer.len + 2 ≤ r.buffer.capacity →
        (Render.write_u16 v >>= fun _ => k) r = k { r with buffer := r.buffer.append (be16 v) } ∧
        ({ r with buffer := r.buffer.append (be16 v) } : Render).buffer.len = r.buffer.len + 2 ∧
        ({ r with buffer := r.buffer.append (be16 v) } : Render).buffer.capacity = r.buffer.capacity := by
      intro v r k hk
      refine ⟨St.bind_ok (by rw [Render.write_u16, Render.write_u16_r, if_pos hk]), rfl, ?_⟩
      exact OutBuf.append_capacity (d := be16 v) hk
    unfold Header.to_wire
    obtain ⟨a, b, c⟩ := w hd.id h.r _ (by omega); rw [a]
    generalize ({ h.r with buffer := h.r.buffer.append (be16 hd.id) } : Render) = r1 at *
    obtain ⟨a2, b2, c2⟩ := w hd.header_flag r1 _ (by omega); rw [a2]
    generalize ({ r1 with buffer := r1.buffer.append _ } : Render) = r2 at *
    obtain ⟨a3, b3, c3⟩ := w hd.qd_count r2 _ (by omega); rw [a3]
    generalize ({ r2 with buffer := r2.buffer.append _ } : Render) = r3 at *
    obtain ⟨a4, b4, c4⟩ := w hd.an_count r3 _ (by omega); rw [a4]
    generalize ({ r3 with buffer := r3.buffer.append _ } : Render) = r4 at *
    obtain ⟨a5, b5, c5⟩ := w hd.ns_count r4 _ (by omega); rw [a5]
    generalize ({ r4 with buffer := r4.buffer.append _ } : Render) = r5 at *
    rw [Render.write_u16, Render.write_u16_r, if_pos (by omega)]
  refine ⟨hok, ?_⟩
  rcases Header.emits_header_octets hd h.r g h1 with ⟨r', out, e1, e2, e3⟩ | ⟨r', e1, _⟩
  · rw [e1, e2.data, List.length_append, e3]; rfl
  · rw [e1] at hok; simp at hok

/-- reading any twelve octets and writing the header again: the octets come back, except for the second word, in which
the Z bit is cleared and unassigned opcodes and rcodes are replaced (`normFlags`) -/
theorem c34_read_write (msg : List UInt8) (id w qd an ns ar : UInt16) (rest : List UInt8)
    (hm : msg = be16 id ++ (be16 w ++ (be16 qd ++ (be16 an ++ (be16 ns ++ (be16 ar ++ rest))))))
    {backing : List UInt8} {h : Hist} (hr : Reached backing h) (hroom : h.r.data.length + 12 ≤ backing.length) :
    ∃ hd : Header, Header.from_wire ⟨msg, 0⟩ = (.ok hd, ⟨msg, 12⟩) ∧
      (hd.to_wire h.r).2.data = h.r.data ++
        (be16 id ++ (be16 (UInt16.ofNat (normFlags w.toNat)) ++ (be16 qd ++ (be16 an ++ (be16 ns ++ be16 ar))))) := by
  refine ⟨⟨id, w &&& HEADERFLAG_MASK, Opcode.new ((w &&& OPCODE_MASK) >>> OPCODE_SHIFT).toUInt8, Rcode.new (w &&& RCODE_MASK).toUInt8,
    qd, an, ns, ar⟩, ?_, ?_⟩
  · have rd : ∀ {α : Type} (p : Nat) (v : UInt16) (t : List UInt8) (k : UInt16 → St InBuf α), msg.drop p = be16 v ++ t →
        (InBuf.read_u16 >>= k) ⟨msg, p⟩ = k v ⟨msg, p + 2⟩ ∧ msg.drop (p + 2) = t := by
      intro α p v t k hd
      refine ⟨St.bind_ok (InBuf.read_u16_be (b := ⟨msg, p⟩) (by exact hd)), ?_⟩
      rw [← List.drop_drop, hd]; rfl
    unfold Header.from_wire
    obtain ⟨a1, b1⟩ := rd 0 id _ _ (by simpa using hm); rw [a1]
    obtain ⟨a2, b2⟩ := rd _ w _ _ b1; rw [a2]
    obtain ⟨a3, b3⟩ := rd _ qd _ _ b2; rw [a3]
    obtain ⟨a4, b4⟩ := rd _ an _ _ b3; rw [a4]
    obtain ⟨a5, b5⟩ := rd _ ns _ _ b4; rw [a5]
    obtain ⟨a6, b6⟩ := rd _ ar _ _ b5; rw [a6]
    rfl
  · obtain ⟨g, h1, _⟩ := hr.hinv.inv
    generalize hh : (⟨id, w &&& HEADERFLAG_MASK, Opcode.new ((w &&& OPCODE_MASK) >>> OPCODE_SHIFT).toUInt8, Rcode.new (w &&& RCODE_MASK).toUInt8,
      qd, an, ns, ar⟩ : Header) = hd
    have hok := (c34_twelve_octets hr hd hroom).1
    rcases Header.emits_header_octets hd h.r g h1 with ⟨r', out, e1, e2, e3⟩ | ⟨r', e1, _⟩
    · rw [e1, e2.data, e3]
      subst hh
      have : (reword w) = UInt16.ofNat (normFlags w.toNat) := by
        apply UInt16.toNat_inj.mp
        rw [← reword_norm]; simp
      simp only [Header.octets]
      rw [← this]; rfl
    · rw [e1] at hok; simp at hok

example : (Header.from_wire ⟨be16 7 ++ (be16 0x8583 ++ (be16 1 ++ (be16 2 ++ (be16 3 ++ (be16 4 ++ []))))), 0⟩).1 =
    .ok ⟨7, 0x8580, .Query, .NXDomain, 1, 2, 3, 4⟩ ∧ normFlags 0x8583 = 0x8583 ∧ normFlags 0x1840 = 0x3000 := by decide +kernel

end R53
