import Verif.Proofs.Decode3
import Verif.Spec.Size
/-!
# How large a decoded message can be
-/
namespace R53

theorem NameAt.grows {n : Name} {msg : List UInt8} {p e : Nat} (h : NameAt n msg p e) :
    p < e ∧ n.raw.length ≤ 255 ∧ ∃ j, j ≤ 1 ∧ 2 * j ≤ e - p ∧ n.raw.length ≤ e - p + 253 * j := by
  obtain ⟨ls, hd, hv, rfl⟩ := h
  have h1 : (Name.ofLabels ls).raw.length ≤ 255 := by simpa [Name.ofLabels, nameWire] using hv.2
  have adv : ∀ {l p : Nat} {ls : List Label} {e : Nat}, Decodes msg l p ls e → p < e := by
    intro l p ls e hd
    induction hd with
    | root => omega
    | label len _ _ _ _ _ _ ih => omega
    | pointer => omega
  cases hd with
  | root h => exact ⟨by omega, h1, 0, by omega, by omega, by simp [Name.ofLabels, nameWire, wire, labelWire]⟩
  | label len _ h3 _ _ _ h6 =>
    have := adv h6
    exact ⟨by omega, h1, 1, by omega, by omega, by omega⟩
  | pointer => exact ⟨by omega, h1, 1, by omega, by omega, by omega⟩

theorem FieldsAt.grows {cs : List (Codec × Disp)} {vs : List FieldVal} {msg : List UInt8} {p e : Nat} (hp : p ≤ msg.length) (h : FieldsAt cs vs msg p e) :
    p ≤ e ∧ ∃ j, j ≤ namesIn cs ∧ 2 * j ≤ e - p ∧ fieldsSize cs vs ≤ e - p + 253 * j := by
  induction cs generalizing vs p with
  | nil =>
    cases vs with
    | nil => have h : e = p := h; exact ⟨by omega, 0, by omega, by omega, by simp only [fieldsSize]; omega⟩
    | cons _ _ => exact h.elim
  | cons c cs ih =>
    cases vs with
    | nil => exact h.elim
    | cons v vs =>
      obtain ⟨q, h1, h2⟩ := h
      have hq := h1.inside hp
      have s1 := h1.size hp
      obtain ⟨hqe, j, a1, a2, a3⟩ := ih hq.2 h2
      have hn : namesIn (c :: cs) = (if c.1 = .name then 1 else 0) + namesIn cs := by
        unfold namesIn
        rw [List.filter_cons]
        split
        · rename_i h; rw [if_pos (by simpa using h), List.length_cons]; omega
        · rename_i h; rw [if_neg (by simpa using h)]; omega
      have hpq := hq.1
      refine ⟨by omega, ?_⟩
      simp only [fieldsSize]
      by_cases hc : c.1 = .name
      · rw [if_pos hc] at hn
        cases v with
        | name n =>
          obtain ⟨-, h1⟩ := h1
          obtain ⟨b0, b1, i, b2, b3, b4⟩ := h1.grows
          exact ⟨i + j, by omega, by omega, by simp only [FieldVal.size]; omega⟩
        | ip o => rcases h1.1 with ⟨h1, -⟩ | ⟨h1, -⟩ <;> exact absurd (h1.symm.trans hc) (by simp)
        | u8 v => exact absurd (h1.1.symm.trans hc) (by simp)
        | u16 v => exact absurd (h1.1.symm.trans hc) (by simp)
        | u32 v => exact absurd (h1.1.symm.trans hc) (by simp)
        | rrtype t => exact absurd (h1.1.symm.trans hc) (by simp)
        | text ds => exact absurd (h1.1.symm.trans hc) (by simp)
        | bytes d => rcases h1 with ⟨h1, -⟩ | ⟨h1, -⟩ <;> exact absurd (h1.symm.trans hc) (by simp)
      · rw [if_neg hc] at hn s1
        exact ⟨j, by omega, by omega, by omega⟩

theorem DataAt.grows {rd : RData} {msg : List UInt8} {p e : Nat} (hp : p ≤ msg.length) (h : DataAt rd msg p e) :
    ∃ j, j ≤ 2 ∧ 2 * j ≤ e - p ∧ rd.size ≤ e - p + 253 * j := by
  obtain ⟨fs, h1, h2⟩ := h
  obtain ⟨cs, hs, _⟩ := layout_shape h1
  obtain ⟨-, j, a1, a2, a3⟩ := ((fieldsAt_layout hs rd.fields msg p e).mpr ⟨fs, h1, h2⟩).grows hp
  have hn := schema_names _ _ hs
  refine ⟨j, by omega, a2, ?_⟩
  unfold RData.size
  rw [hs]
  exact a3

/-- the most a record can take without compression, whatever name of 255 octets its owner is -/
def RRset.most (s : RRset) : Nat := 265 + (s.rdatas.map RData.size).sum

theorem RecordAt.grows {s : RRset} {msg : List UInt8} {p e : Nat} (hp : p ≤ msg.length) (h : RecordAt s msg p e) :
    p + 11 ≤ e ∧ s.name.raw.length ≤ 255 ∧ s.rdatas.length ≤ 1 ∧ s.most ≤ 52 * (e - p) := by
  have hi := exact_record.inside hp h
  obtain ⟨q, t, c, len, h1, h2, h3, h4, rfl, ⟨_, _, h5⟩ | ⟨h5, rd, h6, h7, h8⟩⟩ := h
  · obtain ⟨b0, b1, -⟩ := h1.grows
    refine ⟨by omega, b1, by simp [h5], ?_⟩
    unfold RRset.most; rw [h5]; simp only [List.map_nil, List.sum_nil]; omega
  · obtain ⟨b0, b1, -⟩ := h1.grows
    obtain ⟨j, a1, a2, a3⟩ := h8.grows (by omega)
    refine ⟨by omega, b1, by simp [h6], ?_⟩
    unfold RRset.most; rw [h6]; simp only [List.map_cons, List.map_nil, List.sum_cons, List.sum_nil]
    have : j = 0 ∨ j = 1 ∨ j = 2 := by omega
    rcases this with rfl | rfl | rfl <;> omega

theorem RecordsAt.grows {recs : List RRset} {msg : List UInt8} {p e : Nat} (hp : p ≤ msg.length) (h : RecordsAt recs msg p e) :
    p + 11 * recs.length ≤ e ∧ (∀ s ∈ recs, s.name.raw.length ≤ 255 ∧ s.rdatas.length ≤ 1) ∧ (recs.map RRset.most).sum ≤ 52 * (e - p) := by
  induction recs generalizing p with
  | nil => have h : e = p := h; subst h; exact ⟨by simp, by simp, by simp⟩
  | cons s ss ih =>
    obtain ⟨q, h1, h2⟩ := h
    obtain ⟨a1, a2, a3, a4⟩ := h1.grows hp
    obtain ⟨b1, b2, b3⟩ := ih (exact_record.inside hp h1).2 h2
    refine ⟨by simp only [List.length_cons]; omega, fun x hx => ?_, by simp only [List.map_cons, List.sum_cons]; omega⟩
    rcases List.mem_cons.mp hx with rfl | hx
    · exact ⟨a2, a3⟩
    · exact b2 x hx

theorem chunk_size {chunk : List RRset} (k : Nat) (hk : k ≤ 255) (h1 : ∀ s ∈ chunk, s.rdatas.length ≤ 1) :
    ((chunk.flatMap RRset.rdatas).map fun rd => k + 10 + rd.size).sum ≤ (chunk.map RRset.most).sum := by
  induction chunk with
  | nil => simp
  | cons s ss ih =>
    have := ih fun x hx => h1 x (by simp [hx])
    simp only [List.flatMap_cons, List.map_append, List.sum_append, List.map_cons, List.sum_cons]
    have h := h1 s (by simp)
    have : (s.rdatas.map fun rd => k + 10 + rd.size).sum ≤ s.most := by
      unfold RRset.most
      match hs : s.rdatas with
      | [] => simp
      | [rd] => simp only [List.map_cons, List.map_nil, List.sum_cons, List.sum_nil]; omega
      | _ :: _ :: _ => rw [hs] at h; simp at h
    omega

theorem Grouped.size {recs sets : List RRset} (h : Grouped recs sets) (h1 : ∀ s ∈ recs, s.name.raw.length ≤ 255 ∧ s.rdatas.length ≤ 1) :
    (sets.map RRset.size).sum ≤ (recs.map RRset.most).sum := by
  obtain ⟨⟨chunks, rfl, hc⟩, -⟩ := h
  induction hc with
  | nil => simp
  | @cons chunk s chunks sets hm _ ih =>
    have := ih fun x hx => h1 x (by simp only [List.flatten_cons, List.mem_append]; exact .inr hx)
    simp only [List.map_cons, List.sum_cons, List.flatten_cons, List.map_append, List.sum_append]
    have : s.size ≤ (chunk.map RRset.most).sum := by
      obtain ⟨f, r, rfl, -, rfl⟩ := hm
      have hf := h1 f (by simp)
      have hk := chunk_size f.name.raw.length hf.1 (chunk := f :: r) fun x hx => (h1 x (by simp only [List.flatten_cons, List.mem_append]; exact .inl hx)).2
      unfold RRset.size
      split
      · simp only [List.map_cons, List.sum_cons, RRset.most]; omega
      · exact hk
    omega

theorem SectionAt.grows {t : SectionType} {n : UInt16} {s : Section} {msg : List UInt8} {p e : Nat} (hp : p ≤ msg.length) (h : SectionAt t n.toNat s msg p e) :
    (Section.records s).length = n.toNat ∧ p + 11 * n.toNat ≤ e ∧ Section.size s ≤ 52 * (e - p) := by
  have hcount := section_count (b := ⟨msg, p⟩) hp ((exact_section n t).of hp h)
  refine ⟨hcount.1, ?_⟩
  rcases h with ⟨h1, rfl, rfl⟩ | ⟨first, rest, sets, h1, h2, h3, rfl, -⟩
  · rw [h1]; simp [Section.size]
  · obtain ⟨a1, a2, a3⟩ := h2.grows hp
    have := h3.size a2
    refine ⟨by rw [h1]; simpa using a1, ?_⟩
    unfold Section.size
    simp only
    omega

end R53
