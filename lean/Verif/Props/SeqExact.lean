import Verif.Props.RoundTrip
import Verif.Props.LabelSeq
/-!
# C80: exactly the label sequences that are read back from their text
-/
namespace R53

/-- a digit behind a backslash -/
def afterDigit (c : UInt8) : List UInt8 → Option (List Label)
  | d :: e :: u => if threeDigits c d e then pushOctet e (readLabels .inside u) else none
  | _ => none

theorem readLabels_escaped (c : UInt8) (t : List UInt8) : readLabels .escaped (c :: t) =
    if c = 46 then pushOctet 46 ((readLabels .start t).map ([] :: ·))
    else if c = 92 then pushOctet 92 (readLabels .escaped t)
    else if 48 ≤ c ∧ c ≤ 57 then afterDigit c t
    else pushOctet c (pushOctet c (readLabels .inside t)) := by
  match t with
  | [] => simp only [readLabels, afterDigit]
  | [_] => simp only [readLabels, afterDigit]
  | _ :: _ :: _ => simp only [readLabels, afterDigit]

/-- a dot more ends one label more -/
theorem readLabels_dot (n : Nat) : ∀ (p : Place) (w : List UInt8) (R : List Label), w.length ≤ n → readLabels p w = some R →
    readLabels p (w ++ [46]) = some (R ++ [[]]) := by
  have base : ∀ (p : Place) (R : List Label), readLabels p [] = some R → readLabels p [46] = some (R ++ [[]]) := by
    intro p R h
    cases p <;> simp only [readLabels] at h <;> cases h <;> rfl
  induction n with
  | zero =>
    intro p w R hn h
    obtain rfl := List.length_eq_zero_iff.1 (Nat.le_zero.1 hn)
    exact base p R h
  | succ n ih =>
    intro p w R hn h
    cases w with
    | nil => exact base p R h
    | cons c t =>
      have ht : t.length ≤ n := by simpa using hn
      have push : ∀ {x : UInt8} {o : Option (List Label)} {R : List Label}, pushOctet x o = some R →
          (∀ S, o = some S → ∀ o', o' = some (S ++ [[]]) → pushOctet x o' = some (R ++ [[]])) := by
        intro x o R h S hS o' ho'
        obtain ⟨l, ls, h1, rfl⟩ := pushOctet_some h
        rw [h1] at hS
        cases hS
        rw [ho']; rfl
      have dot : ∀ {R : List Label}, (readLabels .start t).map ([] :: ·) = some R → (readLabels .start (t ++ [46])).map ([] :: ·) = some (R ++ [[]]) := by
        intro R h
        rw [Option.map_eq_some_iff] at h
        obtain ⟨S, hS, rfl⟩ := h
        rw [ih _ _ _ ht hS]; rfl
      have go : ∀ {x : UInt8} {q : Place} {R : List Label}, pushOctet x (readLabels q t) = some R → pushOctet x (readLabels q (t ++ [46])) = some (R ++ [[]]) := by
        intro x q R h
        obtain ⟨l, ls, h1, -⟩ := pushOctet_some h
        exact push h _ h1 _ (ih _ _ _ ht h1)
      rw [List.cons_append]
      cases p with
      | start =>
        simp only [readLabels] at h ⊢
        split at h
        · rename_i hc; rw [if_pos hc]; exact dot h
        · rename_i hc
          rw [if_neg hc]
          split at h
          · rename_i hc; rw [if_pos hc]; exact go h
          · rename_i hc; rw [if_neg hc]; exact go h
      | inside =>
        simp only [readLabels] at h ⊢
        split at h
        · rename_i hc; rw [if_pos hc]; exact dot h
        · rename_i hc
          rw [if_neg hc]
          split at h
          · rename_i hc; rw [if_pos hc]; exact ih _ _ _ ht h
          · rename_i hc; rw [if_neg hc]; exact go h
      | escaped =>
        rw [readLabels_escaped] at h ⊢
        split at h
        · rename_i hc
          rw [if_pos hc]
          obtain ⟨l, ls, h1, -⟩ := pushOctet_some h
          exact push h _ h1 _ (dot h1)
        · rename_i hc
          rw [if_neg hc]
          split at h
          · rename_i hc; rw [if_pos hc]; exact go h
          · rename_i hc
            rw [if_neg hc]
            split at h
            · rename_i hd
              rw [if_pos hd]
              match t, ht, h with
              | [], _, h => cases h
              | [_], _, h => cases h
              | d :: e :: u, ht, h =>
                simp only [List.cons_append, afterDigit] at h ⊢
                split at h
                · rename_i hx
                  rw [if_pos hx]
                  obtain ⟨l, ls, h1, -⟩ := pushOctet_some h
                  simp only [List.length_cons] at ht
                  exact push h _ h1 _ (ih _ _ _ (by omega) h1)
                · cases h
            · rename_i hd
              rw [if_neg hd]
              obtain ⟨l, ls, h1, -⟩ := pushOctet_some h
              exact push h _ h1 _ (go h1)

/-- the last label is empty only if the text ends with a dot -/
theorem readLabels_last (n : Nat) : ∀ (p : Place) (w : List UInt8) (R : List Label), w.length ≤ n → readLabels p w = some R → w ≠ [] →
    w.getLast? ≠ some 46 → R.getLast? ≠ some [] := by
  induction n with
  | zero => intro p w R hn h hw; exact absurd (List.length_eq_zero_iff.1 (Nat.le_zero.1 hn)) hw
  | succ n ih =>
    intro p w R hn h hw hl
    cases w with
    | nil => exact absurd rfl hw
    | cons c t =>
      have ht : t.length ≤ n := by simpa using hn
      have push : ∀ {x : UInt8} {o : Option (List Label)} {R : List Label}, pushOctet x o = some R →
          (∀ S, o = some S → S.getLast? = some [] → S = [[]]) → R.getLast? ≠ some [] := by
        intro x o R h hS
        obtain ⟨l, ls, h1, rfl⟩ := pushOctet_some h
        intro e
        cases ls with
        | nil => simp at e
        | cons k ks =>
          have := hS _ h1 (by simpa [List.getLast?_cons_cons] using e)
          cases this
      have tail : t ≠ [] → t.getLast? ≠ some 46 := by
        intro h0
        cases t with
        | nil => exact absurd rfl h0
        | cons d u => simpa [List.getLast?_cons_cons] using hl
      have go : ∀ {x : UInt8} {q : Place} {R : List Label}, pushOctet x (readLabels q t) = some R → R.getLast? ≠ some [] := by
        intro x q R h
        refine push h fun S hS e => ?_
        by_cases h0 : t = []
        · subst h0
          cases q <;> simp only [readLabels] at hS <;> cases hS <;> rfl
        · exact absurd e (ih _ _ _ ht hS h0 (tail h0))
      have dot : ∀ {R : List Label}, c = 46 → (readLabels .start t).map ([] :: ·) = some R → R.getLast? ≠ some [] := by
        intro R hc h
        by_cases h0 : t = []
        · subst h0 hc; exact absurd rfl hl
        · rw [Option.map_eq_some_iff] at h
          obtain ⟨S, hS, rfl⟩ := h
          have := ih _ _ _ ht hS h0 (tail h0)
          cases S with
          | nil => 
            intro e
            have hh := (readLabels_count _ _ _ _ (Nat.le_refl _) hS).1
            simp at hh
          | cons k ks => simpa [List.getLast?_cons_cons] using this
      cases p with
      | start =>
        simp only [readLabels] at h
        split at h
        · rename_i hc; exact dot hc h
        · split at h
          · exact go h
          · exact go h
      | inside =>
        simp only [readLabels] at h
        split at h
        · rename_i hc; exact dot hc h
        · split at h
          · by_cases h0 : t = []
            · subst h0; simp only [readLabels] at h; cases h
            · exact ih _ _ _ ht h h0 (tail h0)
          · exact go h
      | escaped =>
        rw [readLabels_escaped] at h
        split at h
        · rename_i hc
          obtain ⟨l, ls, h1, -⟩ := pushOctet_some h
          exact push h fun S hS e => absurd e (dot hc hS)
        · split at h
          · exact go h
          · split at h
            · match t, ht, h, tail with
              | [], _, h, _ => cases h
              | [_], _, h, _ => cases h
              | d :: e :: u, ht, h, tail =>
                simp only [afterDigit] at h
                split at h
                · refine push h fun S hS e' => ?_
                  by_cases h0 : u = []
                  · subst h0; simp only [readLabels] at hS; cases hS; rfl
                  · simp only [List.length_cons] at ht
                    refine absurd e' (ih _ _ _ (by omega) hS h0 ?_)
                    have := tail (by simp)
                    cases u with
                    | nil => exact absurd rfl h0
                    | cons f v => simpa [List.getLast?_cons_cons] using this
                · cases h
            · exact push h fun S hS e => absurd e (go hS)

theorem joinDots_present_root {n : List Label} (hn : n ≠ []) : joinDots ((n ++ [[]]).map present) = List.intercalate [46] (n.map present) ++ [46] := by
  have h1 : (n ++ [[]]).map present ≠ [[]] := by
    intro e
    have := congrArg List.length e
    simp at this
    exact hn this
  rw [joinDots, if_neg h1, List.map_append]
  show List.intercalate [46] (n.map present ++ [[]]) = _
  cases n with
  | nil => exact absurd rfl hn
  | cons a n =>
    clear hn h1
    induction n generalizing a with
    | nil => simp [List.intercalate]
    | cons b n ih =>
      have := ih b
      simp only [List.map_cons, List.cons_append, List.intercalate] at this ⊢
      simp only [List.intersperse_cons₂, List.flatten_cons] at this ⊢
      rw [this]; simp

namespace LabelSequence

/-- a run of labels comes back from its text exactly if all its octets are visible and none is one of `" ( ) . ; \ @ $` -/
theorem c80_exact (ls : List Label) (h : IsRun ls) :
    (∃ t, to_string (ofLabels ls) = .ok t ∧ from_str t = .ok (ofLabels ls)) ↔ ∀ l ∈ ls, ∀ c ∈ l, Plain c := by
  constructor
  · rintro ⟨t, ht, hf⟩
    rw [c80_text ls h] at ht
    obtain rfl := Res.ok.inj ht
    obtain ⟨hne, n, hv, hls⟩ := h
    rcases from_str_of_new (joinDots (ls.map present)) with ⟨-, h2⟩ | ⟨ks, hk, h1, h2⟩
    · rw [h2] at hf; cases hf
    rw [h2] at hf
    have short : ∀ l ∈ ls, l.length ≤ 63 := by
      intro l hl
      rcases hls with rfl | rfl
      · exact (hv.1 l hl).2
      · rcases List.mem_append.1 hl with hl | hl
        · exact (hv.1 l hl).2
        · simp at hl; subst hl; simp
    have hw : (if EndsWithRoot (joinDots (ls.map present)) then ks ++ [[]] else ks) = ls := by
      refine wire_inj ?_ short (congrArg LabelSequence.data (Res.ok.inj hf))
      intro l hl
      split at hl
      · rcases List.mem_append.1 hl with hl | hl
        · exact (hk l hl).2
        · simp at hl; subst hl; simp
      · exact (hk l hl).2
    rcases hls with rfl | rfl
    · split at hw
      · exfalso
        have := (hv.1 [] (by rw [← hw]; simp)).1
        simp at this
      · rename_i hroot
        subst hw
        by_cases hr : ks = []
        · exact absurd hr hne
        have e1 : ks.map present ≠ [[]] := by
          intro e
          have h3 : ks.map present = [([] : Label)].map present := e
          have h4 : ks = [[]] := map_present_root.1 e
          have := (hv.1 [] (by rw [h4]; simp)).1
          simp at this
        have ht : joinDots (ks.map present) = List.intercalate [46] (ks.map present) := by rw [joinDots, if_neg e1]
        have ha := joinDots_present_root hne
        rw [ht] at h1 hroot
        refine (c05_exact ks hv).1 ⟨_, (c05_text ks hv).1, ?_⟩
        rw [ha]
        generalize hT : List.intercalate [46] (ks.map present) = T at h1 hroot ha
        have hT0 : T ≠ [] := by rintro rfl; rw [Name.new_dialect] at h1; cases h1
        rw [Name.new_dialect] at h1 ⊢
        have hx : readName T = some ks := by
          cases hrd : readName T with
          | none => rw [hrd] at h1; cases h1
          | some js =>
            rw [hrd] at h1
            have e2 : nameWire js = nameWire ks := by
              rw [nameWire_eq, nameWire_eq]; exact congrArg Name.raw (Res.ok.inj h1)
            unfold readName at hrd
            split at hrd
            · cases hrd
              exact absurd (Name.nameWire_inj hv.1 (by simp) e2.symm) hr
            · split at hrd
              · split at hrd
                · rename_i hlim
                  cases hrd
                  rw [Name.nameWire_inj hlim.2.1 hv.1 e2]
                · cases hrd
              · cases hrd
        unfold readName at hx
        split at hx
        · cases hx; exact absurd rfl hr
        · split at hx
          · rename_i R hR
            split at hx
            · have hlast : R.getLast? ≠ some [] :=
                readLabels_last _ _ _ _ (Nat.le_refl _) hR hT0 fun e => hroot (.inl e)
              have hRk : R = ks := by
                have := Option.some.inj hx
                rw [dropFinal, if_neg hlast] at this
                exact this
              have hread : readName (T ++ [46]) = some ks := by
                unfold readName
                rw [if_neg, readLabels_dot _ _ _ _ (Nat.le_refl _) hR, hRk]
                · have e5 : dropFinal (ks ++ [[]]) = ks := by simp [dropFinal]
                  dsimp only
                  rw [e5, if_pos]
                  refine ⟨hr, hv.1, ?_⟩
                  have := hv.2
                  split <;> omega
                · rintro (e | e)
                  · have := congrArg List.length e
                    simp at this
                    exact hT0 this
                  · have := congrArg List.getLast? e
                    simp at this
              rw [hread]
            · cases hx
          · cases hx
    · split at hw
      · have e3 : ks = n := List.append_inj_left' hw rfl
        subst e3
        have := (c05_exact ks hv).1 ⟨_, (c05_text ks hv).1, h1⟩
        intro l hl c hc
        rcases List.mem_append.1 hl with hl | hl
        · exact this l hl c hc
        · simp at hl; subst hl; cases hc
      · exfalso
        have := (hk [] (by rw [hw]; simp)).1
        simp at this
  · intro hp
    exact ⟨_, (c80_roundtrip_partial ls h hp).1, (c80_roundtrip_partial ls h hp).2⟩

/-- both sides meet cases, absolute and relative -/
example : IsRun [[119], [67]] ∧ IsRun [[119], [67], []] ∧ (∀ l ∈ ([[119], [67], []] : List Label), ∀ c ∈ l, Plain c) ∧
    IsRun [[97, 46]] ∧ ¬ (∀ l ∈ ([[97, 46]] : List Label), ∀ c ∈ l, Plain c) :=
  ⟨⟨by simp, [[119], [67]], by decide, Or.inl rfl⟩, ⟨by simp, [[119], [67]], by decide, Or.inr rfl⟩, by decide +kernel,
    ⟨by simp, [[97, 46]], by decide, Or.inl rfl⟩, by decide +kernel⟩

end LabelSequence
end R53
