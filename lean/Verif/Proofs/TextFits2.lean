import Verif.Proofs.TextFits
/-!
# What is parsed from text fits the wire format, but for two lengths
-/
namespace R53
open StrBuf Gives

/-- the display kinds used with a codec in the derives of rdatas.rs -/
def compat : Codec → Disp → Bool
  | .name, .name => true
  | .ipv4, .ipv4 => true
  | .ipv6, .ipv6 => true
  | .u8, .u8 => true
  | .u16, .u16 => true
  | .u32, .u32 => true
  | .u32, .timestamp => true
  | .rrtype, .rrtype => true
  | .text, .text => true
  | .byte_binary, .string => true
  | .byte_binary, .binary => true
  | .binary, .binary => true
  | .binary, .base64 => true
  | .binary, .string => true
  | _, _ => false

theorem schema_compat {t : RRType} {cs : List (Codec × Disp)} (hs : schema t = some cs) :
    (cs.all fun c => compat c.1 c.2) = true ∧ ∃ c cs', cs = c :: cs' ∧ c.2 ≠ .base64 := by
  cases t <;> simp only [schema] at hs <;> first | contradiction | (cases hs; exact ⟨rfl, _, _, rfl, by decide⟩)

theorem nameParsed_valid {N : Prop} {n : Name} (h : NameParsed N n) (hs : n.raw.length ≤ 255) : ∃ ls, ValidName ls ∧ n = Name.ofLabels ls := by
  obtain ⟨ls, h1, h2, h3, -⟩ := h
  exact ⟨ls, ⟨h3, by rw [← h2]; exact hs⟩, h1⟩

theorem nameParsed_pos {N : Prop} {n : Name} (h : NameParsed N n) : 1 ≤ n.raw.length := by
  obtain ⟨ls, h1, h2, h3, -⟩ := h
  rw [h2]; simp [nameWire]

theorem field_parsed_fits {N : Prop} {c : Codec} {k : Disp} {v : FieldVal} (hc : compat c k = true) (h : FieldParsed N k v) (hs : v.Short c) :
    FieldFits c v ∧ (k ≠ .base64 → 1 ≤ v.size c) := by
  cases c <;> cases k <;> simp only [compat, Bool.false_eq_true] at hc <;> cases v <;>
    simp only [FieldParsed, FieldVal.Short] at h hs <;> simp only [FieldFits, FieldVal.size, true_and, and_true] 
  all_goals first
    | exact ⟨nameParsed_valid h hs, fun _ => nameParsed_pos h⟩
    | exact ⟨h, fun _ => by omega⟩
    | exact fun _ => by omega
    | exact ⟨h, fun _ => Nat.le_refl _⟩
    | (have := List.length_pos_iff.2 h.1; exact fun _ => this)
    | (exact ⟨hs, fun _ => by omega⟩)
    | skip
  · rename_i ds
    refine ⟨fun d hd => (h.2 d hd).2, fun _ => ?_⟩
    match ds, h.1 with
    | d :: ds, _ => simp; omega
  · exact fun h => absurd rfl h

theorem fields_parsed_fit {N : Prop} : ∀ (cs : List (Codec × Disp)) (vs : List FieldVal), (cs.all fun c => compat c.1 c.2) = true →
    FieldsParsed N cs vs → (∀ p ∈ cs.zip vs, p.2.Short p.1.1) → FieldsFit cs vs := by
  intro cs
  induction cs with
  | nil => intro vs _ h _; cases vs with | nil => exact trivial | cons _ _ => exact h.elim
  | cons c cs ih =>
    intro vs hc h hs
    cases vs with
    | nil => exact h.elim
    | cons v vs =>
      simp only [List.all_cons, Bool.and_eq_true] at hc
      exact ⟨(field_parsed_fits hc.1 h.1 (hs (c, v) (by simp))).1, ih vs hc.2 h.2 (fun p hp => hs p (by simp [hp]))⟩

theorem data_parsed_fits {N : Prop} {t : RRType} {rd : RData} (h : DataParsed N t rd) (hs : rd.Short) : rd.Fits ∧ 1 ≤ rd.size := by
  obtain ⟨h1, cs, h2, h3⟩ := h
  rw [← h1] at h2
  have hs' := hs cs h2
  obtain ⟨h4, c, cs', rfl, h5⟩ := schema_compat h2
  refine ⟨⟨_, h2, fields_parsed_fit _ _ h4 h3 hs'⟩, ?_⟩
  unfold RData.size
  rw [h2]
  simp only
  generalize rd.fields = fs at h3 hs'
  cases fs with
  | nil => exact h3.elim
  | cons v vs =>
    simp only [List.all_cons, Bool.and_eq_true] at h4
    have := (field_parsed_fits h4.1 h3.1 (hs' (c, v) (by simp))).2 h5
    simp only [fieldsSize]; omega

/-- lines without backslash of at most 510 octets make short fields only -/
theorem field_short {N : Prop} {c : Codec} {k : Disp} {v : FieldVal} (hN : N) (hc : compat c k = true) (h : FieldParsed N k v) : v.Short c := by
  cases c <;> cases k <;> simp only [compat, Bool.false_eq_true] at hc <;> cases v <;>
    simp only [FieldParsed] at h <;> simp only [FieldVal.Short]
  · obtain ⟨ls, h1, h2, h3, h4⟩ := h
    exact h4 hN
  · exact h.2
  · exact h.2 hN

theorem data_short {N : Prop} {t : RRType} {rd : RData} (hN : N) (h : DataParsed N t rd) : rd.Short := by
  obtain ⟨h1, cs, h2, h3⟩ := h
  intro cs' hcs'
  rw [h1, h2] at hcs'
  obtain rfl : cs = cs' := by simpa using hcs'
  have h4 := (schema_compat h2).1
  generalize rd.fields = fs at h3
  clear h2 hcs'
  induction cs generalizing fs with
  | nil => intro p hp; simp at hp
  | cons c cs ih =>
    cases fs with
    | nil => exact h3.elim
    | cons v vs =>
      simp only [List.all_cons, Bool.and_eq_true] at h4
      intro p hp
      simp only [List.zip_cons_cons, List.mem_cons] at hp
      rcases hp with rfl | hp
      · exact field_short hN h4.1 h3.1
      · exact ih h4.2 vs h3.2 p hp

theorem set_short {N : Prop} {r : RRset} (hN : N) (h : SetParsed N r) : r.Short := by
  obtain ⟨⟨ls, _, _, _, h1⟩, _, _, _, h2⟩ := h
  exact ⟨h1 hN, fun rd hrd => data_short hN (h2 rd hrd)⟩

theorem set_parsed_fits {N : Prop} {r : RRset} (h : SetParsed N r) (hs : r.Short) (L : Nat)
    (hL : L ≤ 65535 ∨ ∀ rd ∈ r.rdatas, rd.size ≤ 65535) : r.FitsIn L := by
  obtain ⟨h1, h2, h3, h4, h5⟩ := h
  refine ⟨nameParsed_valid h1 hs.1, h3, h2, fun rd hrd => ?_, fun h => absurd h h4⟩
  obtain ⟨k1, k2⟩ := data_parsed_fits (h5 rd hrd) (hs.2 rd hrd)
  exact ⟨(h5 rd hrd).1, k1, k2, hL.imp id fun h => h rd hrd⟩

end R53
