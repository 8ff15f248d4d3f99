import Verif.Proofs.NameDialect
import Verif.Proofs.NameCmp
/-!
# C04–C06: names as text
-/
namespace R53
namespace Name

/-! ## C04 -/

/-- for every text: never a panic; on success an absolute name of valid labels, of at most 255 octets unless the
text ends in `\.`, when it can be 256 (`c04_too_long`). Missing: the bound 255 for texts ending in `\.`, which is
false. -/
theorem c04_new_limits_partial (text : List UInt8) :
    new text ≠ .panic ∧ ∀ n, new text = .ok n →
      ∃ ls, n = ofLabels ls ∧ n.raw = nameWire ls ∧ n.label_count = ls.length + 1 ∧
        (∀ l ∈ ls, 1 ≤ l.length ∧ l.length ≤ 63) ∧ n.raw.length ≤ 256 ∧
        ((∀ u, text ≠ u ++ [92, 46]) → n.raw.length ≤ 255 ∧ ValidName ls) := by
  unfold new string_parse
  rcases ftLoop_inv text ⟨[], [0], 0, 0, 0, false, .Init⟩ (.init rfl) with h | ⟨ls, h, hv, hl, ht⟩
  · rw [h]; simp
  · rw [h]
    refine ⟨by simp, ?_⟩
    intro n hn
    simp only [Res.bind_ok, Res.pure_eq, Res.ok.injEq] at hn
    subst hn
    have hof : (⟨nameWire ls, starts 0 (ls ++ [[]])⟩ : Name) = ofLabels ls := by rw [nameWire_eq]; rfl
    refine ⟨ls, hof, rfl, by rw [hof, ofLabels_count], hv, hl, ?_⟩
    intro hu
    have : (nameWire ls).length ≤ 255 := by
      by_cases h256 : (nameWire ls).length = 256
      · obtain ⟨t, h1, h2⟩ := ht h256
        rcases h2 with ⟨_, h2⟩ | ⟨u, h2⟩
        · simp at h2
        · exact absurd (by rw [h1, h2]; simp) (hu u)
      · omega
    exact ⟨this, hv, this⟩

example : new "www.Example.com".toUTF8.toList =
    .ok (ofLabels ["www".toUTF8.toList, "Example".toUTF8.toList, "com".toUTF8.toList]) := by decide +kernel

/-- a text of 255 characters: three labels of 63, then 61 octets and `\.` -/
def tooLongText : List UInt8 :=
  (List.replicate 63 97 ++ [46]) ++ (List.replicate 63 97 ++ [46]) ++ (List.replicate 63 97 ++ [46]) ++
    (List.replicate 61 97 ++ [92, 46])

/-- the code violates C04: a name of 256 octets -/
theorem c04_too_long : ∃ n, new tooLongText = .ok n ∧ n.raw.length = 256 :=
  ⟨_, (by decide +kernel : new tooLongText = .ok (ofLabels [List.replicate 63 97, List.replicate 63 97, List.replicate 63 97,
    List.replicate 61 97 ++ [46]])), by decide +kernel⟩

/-- the only names beyond the limits: one octet too many, from a text that ends in `\.` -/
theorem c04_exact (text : List UInt8) (n : Name) (h : new text = .ok n) :
    (∃ ls, ValidName ls ∧ n = ofLabels ls) ∨ (n.raw.length = 256 ∧ ∃ u, text = u ++ [92, 46]) := by
  obtain ⟨ls, h1, h2, h3, h4, h5, h6⟩ := (c04_new_limits_partial text).2 n h
  by_cases hu : ∃ u, text = u ++ [92, 46]
  · by_cases hl : n.raw.length ≤ 255
    · exact .inl ⟨ls, ⟨h4, by rw [← h2]; exact hl⟩, h1⟩
    · exact .inr ⟨by omega, hu⟩
  · exact .inl ⟨ls, (h6 fun u e => hu ⟨u, e⟩).2, h1⟩

/-! ## C05 -/

/-- printing never panics and printing then parsing is the identity, for the names whose octets print as themselves.
Missing: names with octets that are printed with a backslash, for which it is false (`c05_violated`). -/
theorem c05_print_parse_partial {ls : List Label} (hv : ValidName ls) (hp : ∀ l ∈ ls, ∀ c ∈ l, Plain c) :
    ∃ t, to_string (ofLabels ls) = .ok t ∧ new t = .ok (ofLabels ls) ∧
      (ls ≠ [] → t = ls.flatMap (fun l => l ++ [46])) ∧ (ls = [] → t = [46]) := by
  refine ⟨_, to_string_plain hv hp, new_dotted hv hp, ?_, ?_⟩
  · intro h; rw [if_neg h]
    clear hv hp h
    induction ls with
    | nil => rfl
    | cons l ls ih => simp [dotted, ih]
  · intro h; rw [if_pos h]

example : to_string (ofLabels [[119, 119], [65]]) = .ok [119, 119, 46, 65, 46] := by decide +kernel

/-- the code violates C05: a label holding one dot is printed `\.` and not read back, one holding `(` comes back as
`\((`, one holding octet 1 as `\1` -/
theorem c05_violated :
    (to_string (ofLabels [[46]]) = .ok [92, 46, 46] ∧ new [92, 46, 46] ≠ .ok (ofLabels [[46]])) ∧
    (to_string (ofLabels [[97, 40]]) = .ok [97, 92, 40, 46] ∧ new [97, 92, 40, 46] = .ok (ofLabels [[97, 40, 40]])) ∧
    (to_string (ofLabels [[97, 1]]) = .ok [97, 92, 48, 48, 49, 46] ∧ new [97, 92, 48, 48, 49, 46] = .ok (ofLabels [[97, 49]])) := by
  decide +kernel

/-! ## C06 -/

/-- a text without backslash is accepted exactly when it denotes a name within the limits (`denotes`, in Spec/NameText),
and gives that name. Missing: texts with escapes, for which the RFC reading is false (`c06_escapes_violated`). -/
theorem c06_plain_text_partial (t : List UInt8) (h : 92 ∉ t) :
    (∀ ls, denotes t = some ls → new t = .ok (ofLabels ls)) ∧ (denotes t = none → new t = .err) := by
  rw [new_plain t h]
  cases hd : denotes t with
  | none => simp
  | some ls => simp

example : denotes [97, 98, 46, 99] = some [[97, 98], [99]] ∧ denotes [97, 46, 46] = none ∧ denotes [64] = some [] := by
  decide +kernel

/-- the code violates C06: `a\.b` is two labels `a.` and `b`; `a\065` is `a5`, not `aA`; `a\-b` is `a--b` -/
theorem c06_escapes_violated :
    new [97, 92, 46, 98] = .ok (ofLabels [[97, 46], [98]]) ∧
    new [97, 92, 48, 54, 53] = .ok (ofLabels [[97, 53]]) ∧
    new [97, 92, 45, 98] = .ok (ofLabels [[97, 45, 45, 98]]) := by
  decide +kernel

/-- every text, escapes included: accepted exactly when it denotes a name in the notation of this library (`readName`, in Spec/NameText) -/
theorem c06_exact (t : List UInt8) :
    (∀ ls, readName t = some ls → new t = .ok (ofLabels ls)) ∧ (readName t = none → new t = .err) := by
  rw [new_dialect t]
  cases readName t with
  | none => simp
  | some ls => simp

/-- `\\(a\.b\0651` -/
example : readName [92, 92, 40, 97, 92, 46, 98, 92, 48, 54, 53, 49] = some [[92, 92, 40, 40, 97, 46], [98, 53, 49]] := by decide +kernel
example : readName [97, 92, 51, 48, 48] = none ∧ readName [97, 92] = none ∧ readName [97, 92, 49, 50] = none := by decide +kernel

/-- without backslashes the notation is that of RFC 1035 -/
theorem c06_notation_plain (t : List UInt8) (h : 92 ∉ t) : readName t = denotes t := by
  have h1 := c06_exact t
  have h2 := c06_plain_text_partial t h
  cases hr : readName t with
  | none =>
    cases hd : denotes t with
    | none => rfl
    | some ls => have e1 := h1.2 hr; rw [h2.1 ls hd] at e1; cases e1
  | some ls =>
    cases hd : denotes t with
    | none => have e1 := h1.1 ls hr; rw [h2.2 hd] at e1; cases e1
    | some ms =>
      have e1 := h1.1 ls hr
      rw [h2.1 ms hd] at e1
      have e2 : ofLabels ms = ofLabels ls := by simpa using e1
      have hv : ValidName ms := by
        unfold denotes at hd
        split at hd
        · cases hd; decide
        · split at hd
          · rename_i hh; cases hd; exact hh.2
          · cases hd
      have hvl : ValidName ls := by
        unfold readName at hr
        split at hr
        · cases hr; decide
        · split at hr
          · split at hr
            · rename_i hh
              cases hr
              refine ⟨hh.2.1, ?_⟩
              have := hh.2.2
              rw [if_neg (by rintro ⟨u, hu⟩; exact h (by rw [← hu]; simp))] at this
              exact this
            · cases hr
          · cases hr
      rw [ofLabels_inj hv hvl e2]

end Name
end R53
