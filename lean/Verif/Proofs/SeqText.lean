import Verif.Proofs.NameText2
import Verif.Proofs.LabelSeq
import Verif.Spec.Slice
/-!
# Text of label sequences and slices
-/
namespace R53
namespace Name

theorem setCount_keeps {s s' : Ft} (h : setCount s = .ok s') : s'.done = s.done ∧ s'.state = s.state := by
  unfold setCount at h
  simp only [Res.bind_eq_ok, Res.pure_eq, Res.ok.injEq] at h
  obtain ⟨_, _, _, _, _, _, h⟩ := h
  subst h; exact ⟨rfl, rfl⟩

theorem ftOrdinary_done {c : UInt8} {last : Bool} {s s' : Ft} (h : ftOrdinary c last s = .ok s') (hd : s.done = false) (hs : s.state ≠ .Init) :
    (s'.done = true ↔ last = true ∧ c = 46) ∧ s'.state ≠ .Init := by
  unfold ftOrdinary at h
  by_cases h46 : c = 46
  · rw [if_pos h46] at h
    simp only [Res.bind_eq_ok] at h
    obtain ⟨_, _, s1, h2, h3⟩ := h
    obtain ⟨k1, k2⟩ := setCount_keeps h2
    cases last
    · simp at h3; subst h3; simp [k1, hd]
    · simp at h3; subst h3; simp [h46, k2, hs]
  · rw [if_neg h46] at h
    by_cases h92 : c = 92
    · rw [if_pos h92] at h
      simp at h; subst h; simp [hd, h46]
    · rw [if_neg h92] at h
      simp only [Res.bind_eq_ok, Res.pure_eq, Res.ok.injEq] at h
      obtain ⟨_, _, h⟩ := h
      subst h
      simp [hd, h46, hs]

theorem ftChar_done {c : UInt8} {last : Bool} {s s' : Ft} (h : ftChar c last s = .ok s') (hd : s.done = false) :
    (s'.done = true ↔ last = true ∧ (c = 46 ∨ c = 64 ∧ s.state = .Init)) ∧ (s'.done = false → s'.state ≠ .Init) := by
  have hdec : ∀ {t : Ft}, t.done = false → t.state = .Escdecimal → ftEscdecimal c t = .ok s' → s'.done = false ∧ c ≠ 46 ∧ s'.state ≠ .Init := by
    intro t hd hst h
    unfold ftEscdecimal at h
    simp only [Res.bind_eq_ok] at h
    obtain ⟨u, hu, h⟩ := h
    have hc : isDigit c = true := ensure_eq_ok.1 hu
    have hc46 : c ≠ 46 := by rintro rfl; revert hc; decide
    split at h
    · simp only [Res.bind_eq_ok, Res.pure_eq, Res.ok.injEq] at h
      obtain ⟨_, _, _, _, h⟩ := h
      subst h; exact ⟨hd, hc46, by simp⟩
    · simp only [Res.pure_eq, Res.ok.injEq] at h
      subst h; exact ⟨hd, hc46, by simp [hst]⟩
  have hesc : ∀ {t : Ft}, t.done = false → ftEscape c last t = .ok s' → (s'.done = true ↔ last = true ∧ c = 46) ∧ s'.state ≠ .Init := by
    intro t hd h
    unfold ftEscape at h
    split at h
    · simp only [Res.bind_eq_ok] at h
      obtain ⟨_, _, h⟩ := h
      exact ftOrdinary_done h hd (by simp)
    · obtain ⟨k1, k2, k3⟩ := hdec (t := { t with digits := 0, value := 0, state := .Escdecimal }) hd rfl h
      simp [k1, k2, k3]
  have hini : ∀ {t : Ft}, t.done = false → ftInitialescape c last t = .ok s' → (s'.done = true ↔ last = true ∧ c = 46) ∧ s'.state ≠ .Init := by
    intro t hd h
    unfold ftInitialescape at h
    simp only [Res.bind_eq_ok] at h
    obtain ⟨_, _, h⟩ := h
    exact hesc (t := { t with state := .Escape }) hd h
  have hstart : ∀ {t : Ft}, t.done = false → ftStart c last t = .ok s' → (s'.done = true ↔ last = true ∧ c = 46) ∧ s'.state ≠ .Init := by
    intro t hd h
    unfold ftStart at h
    simp only at h
    split at h
    · exact hini (t := { t with data := t.data ++ [0], count := 0, state := .Initialescape }) hd h
    · exact ftOrdinary_done h hd (by simp)
  have wrap : s.state ≠ .Init → (s'.done = true ↔ last = true ∧ c = 46) ∧ s'.state ≠ .Init →
      (s'.done = true ↔ last = true ∧ (c = 46 ∨ c = 64 ∧ s.state = .Init)) ∧ (s'.done = false → s'.state ≠ .Init) := by
    intro hs h
    exact ⟨by rw [h.1]; simp [hs], fun _ => h.2⟩
  unfold ftChar at h
  split at h
  · rename_i hst
    unfold ftInit at h
    split at h
    · rename_i h46
      split at h
      · rename_i hl
        simp only [Res.pure_eq, Res.ok.injEq] at h; subst h; simp [h46, hl]
      · simp at h
    · rename_i h46
      split at h
      · rename_i hl
        simp only [Res.pure_eq, Res.ok.injEq] at h; subst h; simp [hl, hst]
      · rename_i h64
        obtain ⟨k1, k2⟩ := hstart (t := { s with state := .Start }) hd h
        refine ⟨?_, fun _ => k2⟩
        rw [k1]
        constructor
        · rintro ⟨a, b⟩; exact ⟨a, Or.inl b⟩
        · rintro ⟨a, b | ⟨b, -⟩⟩
          · exact ⟨a, b⟩
          · exact absurd ⟨b, a⟩ h64
  · rename_i hst; exact wrap (by simp [hst]) (hstart hd h)
  · rename_i hst; exact wrap (by simp [hst]) (ftOrdinary_done h hd (by simp [hst]))
  · rename_i hst; exact wrap (by simp [hst]) (hini hd h)
  · rename_i hst; exact wrap (by simp [hst]) (hesc hd h)
  · rename_i hst
    obtain ⟨k1, k2, k3⟩ := hdec hd hst h
    exact wrap (by simp [hst]) ⟨by simp [k1, k2], k3⟩

/-- without the final root label -/
def relative : Res (List UInt8 × List Nat) → Res (List UInt8 × List Nat)
  | .ok (d, o) => .ok (d.dropLast, o.dropLast)
  | r => r

theorem ftFinish_relative (rest : List UInt8) (s : Ft) (hd : s.done = false) : ftFinish false rest s = relative (ftFinish true rest s) := by
  unfold ftFinish
  rw [hd]
  simp only [Bool.false_eq_true, if_false, if_true]
  by_cases h1 : s.data.length < MAX_WIRE_LEN
  · rw [ensure_bind_ok h1, ensure_bind_ok h1]
    by_cases h2 : rest = []
    · rw [assertR_bind_ok h2, assertR_bind_ok h2]
      by_cases h3 : s.state = .Ordinary
      · rw [ensure_bind_ok h3, ensure_bind_ok h3]
        by_cases h4 : s.count ≠ 0
        · rw [assertR_bind_ok h4, assertR_bind_ok h4]
          cases setCount s with
          | ok s' => simp [relative]
          | err => rfl
          | panic => rfl
        · simp only [assertR, if_neg h4]; rfl
      · rw [ensure_bind_err h3, ensure_bind_err h3]; rfl
    · simp only [assertR, if_neg h2]; rfl
  · rw [ensure_bind_err h1, ensure_bind_err h1]; rfl

theorem ftLoop_relative (t : List UInt8) (s : Ft) (hd : s.done = false) :
    ftLoop false t s = if t.getLast? = some 46 ∨ t = [64] ∧ s.state = .Init then ftLoop true t s else relative (ftLoop true t s) := by
  induction t generalizing s with
  | nil => simp only [ftLoop]; rw [if_neg (by simp)]; exact ftFinish_relative [] s hd
  | cons c rest ih =>
    simp only [ftLoop]
    by_cases hl : s.data.length ≥ MAX_WIRE_LEN
    · rw [if_pos hl, if_pos hl]
      have e : ∀ b, ftFinish b (c :: rest) s = .err := by
        intro b
        unfold ftFinish
        rw [hd]
        simp only [Bool.false_eq_true, if_false]
        rw [ensure_bind_err (by omega)]
      rw [e, e]; simp [relative]
    · rw [if_neg hl, if_neg hl]
      cases hc : ftChar c rest.isEmpty s with
      | err => simp [relative]
      | panic => simp [relative]
      | ok s' =>
        obtain ⟨k1, k2⟩ := ftChar_done hc hd
        simp only [Res.bind_ok]
        by_cases hdone : s'.done = true
        · obtain ⟨h1, h2⟩ := k1.1 hdone
          have hr : rest = [] := by simpa using h1
          subst hr
          rw [if_pos hdone, if_pos hdone, if_pos]
          · unfold ftFinish; rw [hdone]; rfl
          · simpa using h2
        · have hdf : s'.done = false := by simpa using hdone
          rw [if_neg hdone, if_neg hdone, ih s' hdf]
          by_cases hr : rest = []
          · subst hr
            rw [if_neg (by simp), if_neg]
            intro h
            exact hdone (k1.2 ⟨rfl, by simpa using h⟩)
          · have e1 : (c :: rest).getLast? = rest.getLast? := by cases rest with
              | nil => exact absurd rfl hr
              | cons a l => simp
            rw [e1]
            have : (c :: rest = [64]) = False := by simp [hr]
            have k3 := k2 hdf
            simp [this, k3]

end Name

namespace LabelSequence
open Name

theorem wire_root_dropLast (ls : List Label) : (wire (ls ++ [[]])).dropLast = wire ls ∧ (starts 0 (ls ++ [[]])).dropLast = starts 0 ls := by
  rw [wire_append, starts_append]
  simp

theorem from_str_of_new (t : List UInt8) :
    (Name.new t = .err ∧ from_str t = .err) ∨
    ∃ ls, (∀ l ∈ ls, ValidLabel l) ∧ Name.new t = .ok (Name.ofLabels ls) ∧ from_str t = .ok (ofLabels (if EndsWithRoot t then ls ++ [[]] else ls)) := by
  have key := ftLoop_relative t ⟨[], [0], 0, 0, 0, false, .Init⟩ rfl
  unfold Name.new from_str Name.string_parse
  rcases ftLoop_inv t ⟨[], [0], 0, 0, 0, false, .Init⟩ (.init rfl) with h | ⟨ls, h, hv, hl, ht⟩
  · left
    rw [key, h]
    refine ⟨rfl, ?_⟩
    split <;> rfl
  · right
    refine ⟨ls, hv, by rw [h]; simp [Name.ofLabels, nameWire], ?_⟩
    rw [key, h]
    by_cases he : EndsWithRoot t
    · rw [if_pos (by simpa [EndsWithRoot] using he), if_pos he]; simp [ofLabels, nameWire, wire_append]
    · rw [if_neg (by simpa [EndsWithRoot] using he), if_neg he]
      have := wire_root_dropLast ls
      have e : nameWire ls = wire (ls ++ [[]]) := by simp [nameWire]
      simp only [relative, Res.bind_ok, e, this.1, this.2]; rfl

end LabelSequence
end R53
