import Verif.Spec.Grammar
import Verif.Proofs.Std2
import Verif.Props.Text
import Verif.Props.NameText
/-!
# The text parsers accept exactly the grammar
-/
namespace R53
open StrBuf StdText

/-- on what is left of a text: the successes of `m` are exactly the readings `R` -/
def Takes {α : Type} (m : St StrBuf α) (R : List UInt8 → α → List UInt8 → Prop) : Prop :=
  ∀ pre rest, isUtf8 rest = true →
    (∀ v s', m (cur pre rest) = (.ok v, s') → ∃ pre' rest', s' = cur pre' rest' ∧ isUtf8 rest' = true ∧ R rest v rest') ∧
    (∀ v rest', R rest v rest' → isUtf8 rest' = true ∧ ∃ pre', m (cur pre rest) = (.ok v, cur pre' rest'))

namespace Takes
variable {α β : Type}

theorem pure (a : α) : Takes (Pure.pure a : St StrBuf α) (fun s v r => v = a ∧ r = s) := by
  intro p rest hu
  refine ⟨fun v s' h => ?_, fun v rest' h => ?_⟩
  · cases h; exact ⟨p, rest, rfl, hu, rfl, rfl⟩
  · obtain ⟨rfl, rfl⟩ := h; exact ⟨hu, p, rfl⟩

theorem fail : Takes (St.fail : St StrBuf α) (fun _ _ _ => False) := by
  intro p rest hu
  exact ⟨fun v s' h => (by cases h), fun v rest' h => h.elim⟩

theorem lift (x : Res α) : Takes (St.lift x : St StrBuf α) (fun s v r => x = .ok v ∧ r = s) := by
  intro p rest hu
  have e : (St.lift x : St StrBuf α) (cur p rest) = (x, cur p rest) := rfl
  refine ⟨fun v s' h => ?_, fun v rest' h => ?_⟩
  · rw [e] at h
    obtain ⟨h1, h2⟩ := Prod.mk.inj h
    exact ⟨p, rest, h2.symm, hu, h1, rfl⟩
  · obtain ⟨rfl, rfl⟩ := h; exact ⟨hu, p, rfl⟩

theorem bind {m : St StrBuf α} {f : α → St StrBuf β} {R : List UInt8 → α → List UInt8 → Prop} {S : α → List UInt8 → β → List UInt8 → Prop}
    (h1 : Takes m R) (h2 : ∀ a, Takes (f a) (S a)) : Takes (m >>= f) (fun s b r => ∃ a mid, R s a mid ∧ S a mid b r) := by
  intro p rest hu
  refine ⟨fun v s' h => ?_, fun v rest' h => ?_⟩
  · obtain ⟨a, s1, e1, e2⟩ := St.bind_ok_inv h
    obtain ⟨p1, r1, rfl, u1, k1⟩ := (h1 p rest hu).1 a s1 e1
    obtain ⟨p2, r2, rfl, u2, k2⟩ := (h2 a p1 r1 u1).1 v s' e2
    exact ⟨p2, r2, rfl, u2, a, r1, k1, k2⟩
  · obtain ⟨a, mid, k1, k2⟩ := h
    obtain ⟨u1, p1, e1⟩ := (h1 p rest hu).2 a mid k1
    obtain ⟨u2, p2, e2⟩ := (h2 a p1 mid u1).2 v rest' k2
    exact ⟨u2, p2, by rw [St.bind_ok e1, e2]⟩

theorem congr {m : St StrBuf α} {R S : List UInt8 → α → List UInt8 → Prop} (h1 : Takes m R) (h2 : ∀ s v r, isUtf8 s = true → (R s v r ↔ S s v r)) :
    Takes m S := by
  intro p rest hu
  refine ⟨fun v s' h => ?_, fun v rest' h => (h1 p rest hu).2 v rest' ((h2 rest v rest' hu).2 h)⟩
  obtain ⟨p1, r1, e, u1, k⟩ := (h1 p rest hu).1 v s' h
  exact ⟨p1, r1, e, u1, (h2 rest v r1 hu).1 k⟩

end Takes

theorem FirstWord.utf8 {s w rest : List UInt8} (h : FirstWord s w rest) (hu : isUtf8 s = true) : isUtf8 w = true ∧ isUtf8 rest = true := by
  obtain ⟨b, rfl, h1, -, -, h4⟩ := h
  rw [List.append_assoc, isUtf8_ascii_append (fun c hc => blank_ascii (h1 c hc))] at hu
  exact isUtf8_split hu (fun c hc => ascii_not_cont (blank_ascii (h4 c hc)))

theorem takes_str : Takes read_str (fun s o r => (∃ w, o = some w ∧ FirstWord s w r) ∨ (o = none ∧ (∀ c ∈ s, Blank c) ∧ r = [])) := by
  intro p rest hu
  refine ⟨fun v s' h => ?_, fun v rest' h => ?_⟩
  · obtain ⟨b, r, rfl, hb, hr⟩ := blanks_ahead rest
    obtain ⟨w, r, rfl, hw, hr2⟩ := word_ahead r
    by_cases hne : w = []
    · subst hne
      cases r with
      | cons x r => exact absurd (hr2 x rfl) (hr x rfl)
      | nil =>
        simp only [List.append_nil] at h
        rw [read_str_none hb] at h
        cases h
        exact ⟨_, [], rfl, rfl, .inr ⟨rfl, by simpa using hb, rfl⟩⟩
    · have hf : FirstWord (b ++ (w ++ r)) w r := ⟨b, by simp, hb, hne, hw, hr2⟩
      rw [read_str_word hb hne hw hr2 (hf.utf8 hu).1] at h
      cases h
      exact ⟨_, r, rfl, (hf.utf8 hu).2, .inl ⟨w, rfl, hf⟩⟩
  · rcases h with ⟨w, rfl, hf⟩ | ⟨rfl, hb, rfl⟩
    · refine ⟨(hf.utf8 hu).2, ?_⟩
      have h1 := (hf.utf8 hu).1
      obtain ⟨b, rfl, hb, hne, hw, hr⟩ := hf
      exact ⟨_, by rw [List.append_assoc]; exact read_str_word hb hne hw hr h1⟩
    · exact ⟨rfl, _, read_str_none hb⟩

theorem takes_read {α : Type} (parse : List UInt8 → Res α) : Takes (StrBuf.read parse) (fun s v r => ∃ w, FirstWord s w r ∧ parse w = .ok v) := by
  unfold StrBuf.read
  refine (takes_str.bind (S := fun o s v r => ∃ w, o = some w ∧ parse w = .ok v ∧ r = s) fun o => ?_).congr fun s v r _ => ?_
  · cases o with
    | none => exact Takes.fail.congr fun s v r _ => by simp
    | some w => exact (Takes.lift (parse w)).congr fun s v r _ => by simp
  · constructor
    · rintro ⟨o, mid, h | ⟨rfl, -⟩, w, h1, h2, rfl⟩
      · obtain ⟨w', rfl, hf⟩ := h
        cases h1
        exact ⟨w, hf, h2⟩
      · cases h1
    · rintro ⟨w, hf, h⟩
      exact ⟨some w, r, .inl ⟨w, rfl, hf⟩, w, rfl, h, rfl⟩

theorem takes_nextWord : Takes RRset.nextWord FirstWord := by
  unfold RRset.nextWord
  refine (takes_str.bind (S := fun o s v r => o = some v ∧ r = s) fun o => ?_).congr fun s v r _ => ?_
  · cases o with
    | none => exact Takes.fail.congr fun s v r _ => by simp
    | some w => exact (Takes.pure w).congr fun s v r _ => by simp [eq_comm]
  · constructor
    · rintro ⟨o, mid, h | ⟨rfl, -⟩, h1, rfl⟩
      · obtain ⟨w', rfl, hf⟩ := h
        cases h1
        exact hf
      · cases h1
    · intro h
      exact ⟨some v, r, .inl ⟨v, rfl, h⟩, rfl, rfl⟩

theorem takes_char : Takes read_char_string CharStringThen := by
  intro p rest hu
  refine ⟨fun v s' h => ?_, fun v rest' h => ?_⟩
  · obtain ⟨res, p', r', e, -, -, h5⟩ := read_char_string_spec p rest
    rw [h] at e
    obtain ⟨e1, e2⟩ := Prod.mk.inj e
    obtain ⟨c, k1, k2, k3, k4⟩ := h5 v e1.symm
    subst e2
    refine ⟨p', r', rfl, ?_, charStringThen_iff.2 ⟨c, k1, k2, k4⟩⟩
    rw [k4] at hu
    exact utf8_after hu
  · obtain ⟨c, k1, k2, rfl⟩ := charStringThen_iff.1 h
    exact ⟨utf8_after hu, _, by rw [read_char_string_ok k1, k2]⟩

theorem takes_text : Takes read_text (fun s ds r => CharStrings s ds ∧ r = []) := by
  intro p rest hu
  refine ⟨fun v s' h => ?_, fun v rest' h => ?_⟩
  · obtain ⟨res, p', r', e, -, -, h5⟩ := read_text_spec p rest
    rw [h] at e
    obtain ⟨e1, e2⟩ := Prod.mk.inj e
    obtain ⟨cs, k1, k2, k3, k4, rfl⟩ := h5 v e1.symm
    exact ⟨p', [], e2, rfl, charStrings_iff.2 ⟨cs, k1, k2, k3, k4⟩, rfl⟩
  · obtain ⟨h, rfl⟩ := h
    obtain ⟨cs, k1, k2, rfl, rfl⟩ := charStrings_iff.1 h
    exact ⟨rfl, _, read_text_ok k1 k2⟩

theorem takes_left : Takes read_left (fun s o r => o = (if s = [] then none else some s) ∧ r = []) := by
  intro p rest hu
  refine ⟨fun v s' h => ?_, fun v rest' h => ?_⟩
  · rw [read_left_spec hu] at h
    obtain ⟨h1, h2⟩ := Prod.mk.inj h
    exact ⟨_, [], h2.symm, rfl, by simpa using h1.symm, rfl⟩
  · obtain ⟨rfl, rfl⟩ := h
    exact ⟨rfl, _, read_left_spec hu⟩

end R53
