import Verif.Proofs.Text5
/-!
# `trim` keeps texts
-/
namespace R53

theorem dropSpaces_keeps {ahead : List UInt8 → Nat} {P : List UInt8 → Prop} (h : ∀ s, P s → P (s.drop (ahead s))) :
    ∀ (n : Nat) (s : List UInt8), P s → P (dropSpaces ahead n s) := by
  intro n
  induction n with
  | zero => intro s hs; exact hs
  | succ n ih =>
    intro s hs
    rw [dropSpaces]
    split
    · exact hs
    · exact ih _ (h s hs)

theorem space_ascii (c : UInt8) (hc : isSpaceAscii c = true) : c.toNat < 0x80 := by
  revert hc; revert c; apply forall_u8'; decide +kernel

theorem spaceAhead_utf8 (s : List UInt8) (h : isUtf8 s = true) : isUtf8 (s.drop (spaceAhead s)) = true := by
  cases s with
  | nil => rfl
  | cons c t =>
    rw [spaceAhead]
    by_cases hc : isSpaceAscii c = true
    · rw [if_pos hc]
      have := isUtf8_ascii_append (a := [c]) (b := t) (by intro d hd; simp at hd; subst hd; exact space_ascii _ hc)
      rw [List.singleton_append] at this
      rw [List.drop_succ_cons, List.drop_zero, ← this]; exact h
    · rw [if_neg hc]
      unfold spaceAheadU
      split
      · rename_i heq; rw [heq] at h ⊢; simpa [isUtf8, isCont] using h
      · rename_i heq; rw [heq] at h ⊢; simpa [isUtf8, isCont] using h
      · rename_i heq; rw [heq] at h ⊢; simpa [isUtf8, isCont] using h
      · rename_i heq; rw [heq] at h ⊢; simpa [isUtf8, isCont] using h
      · rename_i heq; rw [heq] at h ⊢; simpa [isUtf8, isCont] using h
      · rename_i heq; rw [heq] at h ⊢
        split
        · simp [isUtf8, isCont] at h; simpa using h.2
        · exact h
      · exact h

theorem cut2 {a b : UInt8} {t : List UInt8} (h : isUtf8 (a :: b :: t).reverse = true) (hb : isCont b = false) :
    isUtf8 t.reverse = true := by
  simp only [List.reverse_cons, List.append_assoc] at h
  exact (isUtf8_split h (by intro d hd; simp at hd; subst hd; exact hb)).1
theorem cut3 {a b c : UInt8} {t : List UInt8} (h : isUtf8 (a :: b :: c :: t).reverse = true) (hb : isCont c = false) :
    isUtf8 t.reverse = true := by
  simp only [List.reverse_cons, List.append_assoc] at h
  exact (isUtf8_split h (by intro d hd; simp at hd; subst hd; exact hb)).1

theorem spaceBehind_utf8 (s : List UInt8) (h : isUtf8 s.reverse = true) : isUtf8 (s.drop (spaceBehind s)).reverse = true := by
  cases s with
  | nil => rfl
  | cons c t =>
    rw [spaceBehind]
    by_cases hc : isSpaceAscii c = true
    · rw [if_pos hc]
      have ha := space_ascii c hc
      rw [List.reverse_cons] at h
      exact (isUtf8_split h (fun d hd => by simp at hd; subst hd; exact ascii_not_cont ha)).1
    · rw [if_neg hc]
      unfold spaceBehindU
      split
      · rename_i heq; rw [heq] at h ⊢; first | exact cut2 h (by decide) | exact cut3 h (by decide)
      · rename_i heq; rw [heq] at h ⊢; first | exact cut2 h (by decide) | exact cut3 h (by decide)
      · rename_i heq; rw [heq] at h ⊢; first | exact cut2 h (by decide) | exact cut3 h (by decide)
      · rename_i heq; rw [heq] at h ⊢; first | exact cut2 h (by decide) | exact cut3 h (by decide)
      · rename_i heq; rw [heq] at h ⊢; first | exact cut2 h (by decide) | exact cut3 h (by decide)
      · rename_i heq; rw [heq] at h ⊢
        split
        · first | exact cut2 h (by decide) | exact cut3 h (by decide)
        · exact h
      · exact h

theorem trim_utf8 {s : List UInt8} (h : isUtf8 s = true) : isUtf8 (trim s) = true := by
  unfold trim
  simp only
  refine dropSpaces_keeps (P := fun t => isUtf8 t.reverse = true) spaceBehind_utf8 _ _ ?_
  rw [List.reverse_reverse]
  exact dropSpaces_keeps (P := fun t => isUtf8 t = true) spaceAhead_utf8 _ _ h

theorem trim_all {s : List UInt8} {Q : UInt8 → Prop} (h : ∀ c ∈ s, Q c) : ∀ c ∈ trim s, Q c := by
  unfold trim
  simp only
  intro c hc
  rw [List.mem_reverse] at hc
  refine dropSpaces_keeps (P := fun t => ∀ c ∈ t, Q c) (fun t ht d hd => ht d (List.mem_of_mem_drop hd)) _ _ ?_ c hc
  intro d hd
  rw [List.mem_reverse] at hd
  exact dropSpaces_keeps (P := fun t => ∀ c ∈ t, Q c) (fun t ht d hd => ht d (List.mem_of_mem_drop hd)) _ _ h d hd

end R53
