import Verif.Proofs.RoundTrip
import Verif.Props.Present
import Verif.Props.NameText
/-!
# C05: exactly the names that are read back from their text
-/
namespace R53

/-- the octets of the labels, with a mark behind each label -/
def toks (ls : List Label) : List (Option UInt8) := ls.flatMap fun l => l.map some ++ [none]

theorem toks_text (ls : List Label) : (toks ls).flatMap tokText = (ls.map present).flatMap (· ++ [46]) := by
  induction ls with
  | nil => rfl
  | cons l ls ih =>
    have : toks (l :: ls) = l.map some ++ [none] ++ toks ls := by simp [toks]
    rw [this, List.flatMap_append, ih, List.map_cons, List.flatMap_cons, List.flatMap_append]
    congr 1
    congr 1
    simp [List.flatMap_map, present, tokText]

theorem intercalate_final (ks : List Label) : List.intercalate [46] (ks ++ [[]]) = ks.flatMap (· ++ [46]) := by
  induction ks with
  | nil => rfl
  | cons l ks ih =>
    cases ks with
    | nil => simp [List.intercalate]
    | cons k ks =>
      rw [List.flatMap_cons, ← ih]
      simp [List.intercalate]

theorem mem_toks (c : UInt8) (ls : List Label) : some c ∈ toks ls ↔ ∃ l ∈ ls, c ∈ l := by
  simp [toks]

theorem count_toks (ls : List Label) : ((toks ls).flatMap tokText).count 46 = ls.length + ls.flatten.count 46 := by
  have one : ∀ c : UInt8, (presentOctet c).count 46 = [c].count 46 := by
    apply forall_u8'; decide +kernel
  have lab : ∀ l : Label, ((l.map some).flatMap tokText).count 46 = l.count 46 := by
    intro l
    induction l with
    | nil => rfl
    | cons c l ih =>
      rw [List.map_cons, List.flatMap_cons, List.count_append, ih, show tokText (some c) = presentOctet c from rfl, one,
        ← List.count_append]; rfl
  induction ls with
  | nil => rfl
  | cons l ls ih =>
    have : toks (l :: ls) = l.map some ++ [none] ++ toks ls := by simp [toks]
    rw [this, List.flatMap_append, List.count_append, ih, List.flatMap_append, List.count_append, lab]
    simp [tokText]
    omega

theorem others_toks (ls : List Label) : tokOthers (toks ls) = others ls ∧ tokDigs (toks ls) = digs ls := by
  have nil : ∀ R : List Label, tokOthers (toks ([] :: R)) = tokOthers (toks R) ∧ tokDigs (toks ([] :: R)) = tokDigs (toks R) := by
    intro R
    have : toks ([] :: R) = none :: toks R := by simp [toks]
    rw [this]; exact tokOthers_none _
  induction ls with
  | nil => exact ⟨rfl, rfl⟩
  | cons l ls ih =>
    induction l with
    | nil => rw [(nil ls).1, (nil ls).2, (others_nil ls).1, (others_nil ls).2]; exact ih
    | cons c l ih2 =>
      have : toks ((c :: l) :: ls) = some c :: toks (l :: ls) := by simp [toks]
      rw [this, (tokOthers_some c _).1, (tokOthers_some c _).2, (others_push c l ls).1, (others_push c l ls).2, ih2.1, ih2.2]
      exact ⟨rfl, rfl⟩

theorem dropFinal_facts {R ls : List Label} (h : dropFinal R = ls) : R.flatten = ls.flatten ∧ R.length ≤ ls.length + 1 := by
  unfold dropFinal at h
  split at h
  · rename_i hl
    have hne : R ≠ [] := by rintro rfl; simp at hl
    have hg : R.getLast hne = [] := by rw [List.getLast?_eq_some_getLast hne] at hl; exact Option.some.inj hl
    have e : R = R.dropLast ++ [[]] := by rw [← hg, List.dropLast_concat_getLast hne]
    rw [h] at e
    rw [e]; simp
  · subst h; exact ⟨rfl, by omega⟩

/-- the text of an octet has only visible characters, so an octet that is not visible is not one of them -/
theorem tokText_visible (t : Option UInt8) : ∀ c ∈ tokText t, 0x21 ≤ c ∧ c ≤ 0x7e := by
  cases t with
  | none => decide
  | some o =>
    show ∀ c ∈ presentOctet o, _
    revert o; apply forall_u8'; decide +kernel

open Name in
/-- **C05** which names are read back: `Name::new` gives back the name that was printed exactly if all octets of all its labels are visible and
none is one of `" ( ) . ; \ @ $`; any name with another octet is read as another name or refused -/
theorem c05_exact (ls : List Label) (h : ValidName ls) :
    (∃ t, to_string (ofLabels ls) = .ok t ∧ new t = .ok (ofLabels ls)) ↔ ∀ l ∈ ls, ∀ c ∈ l, Plain c := by
  constructor
  · rintro ⟨t, ht, hn⟩
    by_cases hne : ls = []
    · subst hne; simp
    rw [(c05_text ls h).1] at ht
    have hne2 : (ls ++ [[]]).map present ≠ [[]] := by
      intro e
      have := congrArg List.length e
      simp at this
      exact hne this
    have text : t = (toks ls).flatMap tokText := by
      rw [toks_text, ← Res.ok.inj ht, joinDots, if_neg hne2, List.map_append]
      exact intercalate_final _
    rw [new_dialect] at hn
    cases hr : readName t with
    | none => rw [hr] at hn; cases hn
    | some ks =>
      rw [hr] at hn
      have hk : ofLabels ks = ofLabels ls := Res.ok.inj hn
      have hw : nameWire ks = nameWire ls := by
        rw [nameWire_eq, nameWire_eq]; exact congrArg Name.raw hk
      unfold readName at hr
      split at hr
      · cases hr
        exact absurd (nameWire_inj h.1 (by simp) hw.symm) hne
      · split at hr
        · rename_i R hR
          split at hr
          · rename_i hlim
            have hkv : ValidName ks := ⟨by rw [← Option.some.inj hr]; exact hlim.2.1, by rw [hw]; exact h.2⟩
            obtain rfl := ofLabels_inj hkv h hk
            obtain ⟨f1, f2⟩ := dropFinal_facts (Option.some.inj hr)
            obtain ⟨r1, r2⟩ := readLabels_count _ _ _ _ (Nat.le_refl _) hR
            rw [text, count_toks] at r1
            have nodot : ∀ c ∈ ks.flatten, c ≠ 46 := by
              rintro c hc rfl
              have := List.count_pos_iff.2 hc
              omega
            have hsee : Sees (toks ks) := by
              intro c hc
              obtain ⟨l, hl, hc⟩ := (mem_toks c ks).1 hc
              have hc : c ∈ ks.flatten := List.mem_flatten.2 ⟨l, hl, hc⟩
              have hv := r2 c (by rw [f1]; exact hc)
              rw [text, List.mem_flatMap] at hv
              obtain ⟨o, -, ho⟩ := hv
              obtain ⟨v1, v2⟩ := tokText_visible o c ho
              exact ⟨v1, v2, nodot c hc⟩
            rw [text] at hR
            obtain ⟨-, -, k⟩ := read_escapes _ _ _ _ (Nat.le_refl _) hsee hR
            have e1 : others R = others ks := by unfold others; rw [f1]
            have e2 : digs R = digs ks := by unfold digs; rw [f1]
            rw [e1, e2, (others_toks ks).1, (others_toks ks).2] at k
            intro l hl c hc
            refine Classical.byContradiction fun hp => ?_
            have := k (.inr ⟨c, (mem_toks c ks).2 ⟨l, hl, hc⟩, hp⟩)
            omega
          · cases hr
        · cases hr
  · intro hp
    obtain ⟨t, h1, h2, -⟩ := c05_print_parse_partial h hp
    exact ⟨t, h1, h2⟩

/-- both sides meet cases: `www.A.` comes back, `a\@.` and a label with a space do not -/
example : (∀ l ∈ ([[119, 119, 119], [65]] : List Label), ∀ c ∈ l, Plain c) ∧ ValidName [[119, 119, 119], [65]] ∧
    ¬ (∀ l ∈ ([[97, 64]] : List Label), ∀ c ∈ l, Plain c) ∧ ValidName [[97, 64]] ∧
    ¬ (∀ l ∈ ([[97, 32, 98]] : List Label), ∀ c ∈ l, Plain c) ∧ ValidName [[97, 32, 98]] := by decide +kernel

end R53
