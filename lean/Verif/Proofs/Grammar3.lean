import Verif.Proofs.Grammar2
/-!
# Exactly where the text parsers panic
-/
namespace R53
open StrBuf StdText

theorem Res.bind_eq_panic {α β : Type} {x : Res α} {f : α → Res β} : (x >>= f) = .panic ↔ x = .panic ∨ ∃ a, x = .ok a ∧ f a = .panic := by
  cases x with
  | ok a => simp
  | err => simp
  | panic => simp

theorem boundary_iff {w : List UInt8} {k : Nat} (h0 : 0 < k) (hk : k < w.length) : isCharBoundary w k = true ↔ ¬ Inside w k := by
  unfold isCharBoundary Inside
  rw [List.getElem?_eq_getElem hk]
  simp [isCont, show k ≠ w.length by omega, show k ≠ 0 by omega]
  omega

theorem cut_step {α : Type} {w : List UInt8} {a b : Nat} (hab : a < b) (hb : b < w.length) (ha : a = 0 ∨ ¬ Inside w a) (f : List UInt8 → Res α) :
    (strSlice w a b >>= f) = .panic ↔ Inside w b ∨ ¬ Inside w b ∧ f ((w.drop a).take (b - a)) = .panic := by
  have h1 : isCharBoundary w a = true := by
    rcases Nat.eq_zero_or_pos a with rfl | h
    · rfl
    · exact (boundary_iff h (by omega)).2 (ha.resolve_left (by omega))
  unfold strSlice
  by_cases hc : Inside w b
  · rw [if_neg (fun h => (boundary_iff (by omega) hb).1 h.2 hc)]
    simp [hc]
  · rw [if_pos ⟨h1, (boundary_iff (by omega) hb).2 hc⟩, slice, if_pos ⟨by omega, by omega⟩]
    simp [hc]

theorem safe_step {α β : Type} {x : Res α} (h : x ≠ .panic) (f : α → Res β) : (x >>= f) = .panic ↔ ∃ a, x = .ok a ∧ f a = .panic := by
  rw [Res.bind_eq_panic]
  exact ⟨fun k => k.resolve_left h, .inr⟩

theorem or_not_and {p q r : Prop} (h : ¬ p → (q ↔ r)) : (p ∨ ¬ p ∧ q) ↔ (p ∨ r) := by
  by_cases hp : p
  · simp [hp]
  · simp [hp, h hp]

theorem stamp_panic (w : List UInt8) : Field.timestampParse w = .panic ↔ BrokenStamp w := by
  unfold Field.timestampParse BrokenStamp
  rcases Decidable.em (w.length = 14) with hl | hl
  case inr => rw [ensure_bind_err hl]; simp [hl]
  rw [ensure_bind_ok hl]
  have l2 : ∀ a, a + 2 ≤ 14 → ((w.drop a).take 2).length = 2 := by intro a h; simp; omega
  have l4 : ((w.drop 0).take 4).length = 4 := by simp; omega
  simp only [hl, true_and]
  rw [cut_step (by omega) (by omega) (.inl rfl)]
  refine or_not_and fun c4 => ?_
  rw [safe_step (parseInt_safe _)]
  refine exists_congr fun y => ?_
  rw [parseInt_iff l4]
  refine and_congr_right fun hy => ?_
  rw [cut_step (by omega) (by omega) (.inr c4)]
  refine or_not_and fun c6 => ?_
  rw [safe_step (parseNum_safe _)]
  refine exists_congr fun mo => ?_
  rw [numberText_two (l2 4 (by omega))]
  refine and_congr_right fun hmo => ?_
  rw [cut_step (by omega) (by omega) (.inr c6)]
  refine or_not_and fun c8 => ?_
  rw [safe_step (parseNum_safe _)]
  refine exists_congr fun d => ?_
  rw [numberText_two (l2 6 (by omega)), safe_step (timestamp_safe _ _ _ _ _ _), exists_and_left]
  refine and_congr_right fun hd => ?_
  have fin : ∀ f : List UInt8 → Res UInt32, (∀ p, f p ≠ .panic) → ¬ (Inside w 12) → (strSlice w 12 14 >>= f) ≠ .panic := by
    intro f hf h12
    unfold strSlice
    rw [if_pos ⟨(boundary_iff (by omega) (by omega)).2 h12, by simp [isCharBoundary, hl]⟩, slice, if_pos ⟨by omega, by omega⟩, Res.bind_ok]
    exact hf _
  have rest : (do
      let s ← strSlice w 8 10
      let h ← parseNum 255 s
      let s ← strSlice w 10 12
      let mi ← parseNum 255 s
      let s ← strSlice w 12 14
      let sec ← parseNum 255 s
      let t ← Cal.timestamp y mo d h mi sec
      pure (UInt32.ofNat (t % 4294967296).toNat) : Res UInt32) = .panic ↔ Inside w 10 ∨ ∃ h, NumberText 99 ((w.drop 8).take 2) h ∧ Inside w 12 := by
    rw [cut_step (by omega) (by omega) (.inr c8)]
    refine or_not_and fun c10 => ?_
    rw [safe_step (parseNum_safe _)]
    refine exists_congr fun h => ?_
    rw [numberText_two (l2 8 (by omega))]
    refine and_congr_right fun hh => ?_
    rw [cut_step (by omega) (by omega) (.inr c10)]
    constructor
    · rintro (h | ⟨c12, h⟩)
      · exact h
      · rw [safe_step (parseNum_safe _)] at h
        obtain ⟨mi, -, h⟩ := h
        refine absurd h (fin _ (fun p => ?_) c12)
        exact Res.bind_safe (parseNum_safe _) fun _ _ => Res.bind_safe (timestamp_safe _ _ _ _ _ _) (by simp)
    · exact .inl
  rw [rest]
  have hb := yearText_bound l4 hy
  constructor
  · rintro ⟨t, h, k⟩
    obtain ⟨day, h1, -⟩ := (timestamp_iff hb).1 h
    exact ⟨day, h1, k⟩
  · rintro ⟨day, h1, k⟩
    exact ⟨_, (timestamp_iff hb).2 ⟨day, h1, by omega, by omega, by omega, rfl⟩, k⟩

/-- on what is left of a text, `m` panics exactly if `B` -/
def Panics {α : Type} (m : St StrBuf α) (B : List UInt8 → Prop) : Prop :=
  ∀ pre rest, isUtf8 rest = true → ((m (cur pre rest)).1 = .panic ↔ B rest)

namespace Panics
variable {α β : Type}

theorem never {m : St StrBuf α} (h : TextSafe False m) : Panics m (fun _ => False) := by
  intro p rest hu
  obtain ⟨res, p', r', e, h1, -⟩ := h p rest hu (fun h => h.elim)
  rw [e]
  exact ⟨fun h => h1 h, False.elim⟩

theorem bind {m : St StrBuf α} {f : α → St StrBuf β} {R : List UInt8 → α → List UInt8 → Prop} {B : List UInt8 → Prop} {C : α → List UInt8 → Prop}
    (h1 : Takes m R) (h2 : Panics m B) (h3 : ∀ a, Panics (f a) (C a)) : Panics (m >>= f) (fun s => B s ∨ ∃ a mid, R s a mid ∧ C a mid) := by
  intro p rest hu
  have hb := h2 p rest hu
  have ht := h1 p rest hu
  cases e : m (cur p rest) with
  | mk res s' =>
    rw [e] at hb ht
    cases res with
    | panic =>
      rw [St.bind_panic e]
      exact ⟨fun _ => .inl (hb.1 rfl), fun _ => rfl⟩
    | err =>
      rw [St.bind_err e]
      refine ⟨fun h => (by cases h), ?_⟩
      rintro (h | ⟨a, mid, h, -⟩)
      · exact absurd (hb.2 h) (by simp)
      · obtain ⟨-, p', h'⟩ := ht.2 a mid h
        cases h'
    | ok a =>
      rw [St.bind_ok e]
      obtain ⟨p', r', rfl, hu', hr⟩ := ht.1 a s' rfl
      have hc := h3 a p' r' hu'
      constructor
      · intro h; exact .inr ⟨a, r', hr, hc.1 h⟩
      · rintro (h | ⟨a', mid, h, h'⟩)
        · exact absurd (hb.2 h) (by simp)
        · obtain ⟨-, q, e'⟩ := ht.2 a' mid h
          obtain ⟨ea, es⟩ := Prod.mk.inj e'
          cases ea
          have : mid = r' := by
            have := congrArg (fun b : StrBuf => b.raw.drop b.pos) es
            simpa [cur] using this.symm
          subst this
          exact hc.2 h'

/-- the first part does not panic -/
theorem after {m : St StrBuf α} {f : α → St StrBuf β} {R : List UInt8 → α → List UInt8 → Prop} {C : α → List UInt8 → Prop}
    (h1 : Takes m R) (h2 : TextSafe False m) (h3 : ∀ a, Panics (f a) (C a)) : Panics (m >>= f) (fun s => ∃ a mid, R s a mid ∧ C a mid) := by
  intro p rest hu
  rw [bind h1 (never h2) h3 p rest hu]
  simp

/-- what follows does not panic -/
theorem first {m : St StrBuf α} {f : α → St StrBuf β} {R : List UInt8 → α → List UInt8 → Prop} {B : List UInt8 → Prop}
    (h1 : Takes m R) (h2 : Panics m B) (h3 : ∀ a, TextSafe False (f a)) : Panics (m >>= f) B := by
  intro p rest hu
  rw [bind h1 h2 (fun a => never (h3 a)) p rest hu]
  simp

end Panics

theorem panics_read {α : Type} (parse : List UInt8 → Res α) : Panics (StrBuf.read parse) (fun s => ∃ w r, FirstWord s w r ∧ parse w = .panic) := by
  unfold StrBuf.read
  intro p rest hu
  have : ∀ o : Option (List UInt8), Panics (match o with | some s => St.lift (parse s) | none => St.fail) (fun _ => ∃ w, o = some w ∧ parse w = .panic) := by
    intro o p rest hu
    cases o with
    | none => exact ⟨fun h => (by cases h), fun ⟨w, h, _⟩ => by cases h⟩
    | some w => exact ⟨fun h => ⟨w, rfl, h⟩, fun ⟨v, h, h'⟩ => by cases h; exact h'⟩
  refine Iff.trans (Panics.after takes_str TextSafe.read_str this p rest hu) ?_
  constructor
  · rintro ⟨o, mid, ⟨w, rfl, hf⟩ | ⟨rfl, -⟩, v, h, hp⟩
    · cases h; exact ⟨w, mid, hf, hp⟩
    · cases h
  · rintro ⟨w, r, hf, hp⟩
    exact ⟨some w, r, .inl ⟨w, rfl, hf⟩, w, rfl, hp⟩

theorem panics_field (k : Disp) : Panics (Field.from_str stdExt k) (fun s => k = .timestamp ∧ ∃ w r, FirstWord s w r ∧ BrokenStamp w) := by
  by_cases hk : k = .timestamp
  · subst hk
    intro p rest hu
    have := Panics.first (takes_read Field.timestampParse) (panics_read _) (f := fun v => (Pure.pure (FieldVal.u32 v) : St StrBuf FieldVal))
      (fun a => TextSafe.pure _) p rest hu
    refine Iff.trans this ?_
    simp only [stamp_panic, true_and]
  · intro p rest hu
    rw [Panics.never (TextSafe.field stdExt k hk) p rest hu]
    simp [hk]

theorem panics_fields : ∀ cs : List (Codec × Disp), Panics (Field.allFromStr stdExt cs) (fun s => ∃ before behind vs mid w rest,
    cs.map Prod.snd = before ++ .timestamp :: behind ∧ FieldsText before s vs mid ∧ FirstWord mid w rest ∧ BrokenStamp w)
  | [] => by
    intro p rest hu
    exact ⟨fun h => (by cases h), by rintro ⟨b, c, vs, mid, w, r, h, -⟩; simp at h⟩
  | c :: cs => by
    intro p rest hu
    have := Panics.bind (takes_field c.2) (panics_field c.2)
      (fun v => Panics.first (takes_fields cs) (panics_fields cs) (f := fun vs => (Pure.pure (v :: vs) : St StrBuf (List FieldVal))) (fun _ => TextSafe.pure _)) p rest hu
    refine Iff.trans this ?_
    constructor
    · rintro (⟨h1, w, r, h2, h3⟩ | ⟨v, mid, h1, before, behind, vs, m2, w, r, h2, h3, h4, h5⟩)
      · exact ⟨[], cs.map Prod.snd, [], rest, w, r, by simp [h1], ⟨rfl, rfl⟩, h2, h3⟩
      · exact ⟨c.2 :: before, behind, v :: vs, m2, w, r, by simp [h2], ⟨mid, h1, h3⟩, h4, h5⟩
    · rintro ⟨before, behind, vs, m2, w, r, h2, h3, h4, h5⟩
      cases before with
      | nil =>
        obtain ⟨rfl, rfl⟩ := h3
        simp only [List.map_cons, List.nil_append, List.cons.injEq] at h2
        exact .inl ⟨h2.1, w, r, h4, h5⟩
      | cons k before =>
        simp only [List.map_cons, List.cons_append, List.cons.injEq] at h2
        obtain ⟨rfl, h2⟩ := h2
        cases vs with
        | nil => exact h3.elim
        | cons v vs =>
          obtain ⟨mid, h1, h3⟩ := h3
          exact .inr ⟨v, mid, h1, before, behind, vs, m2, w, r, h2, h3, h4, h5⟩

theorem panics_data (typ : RRType) : Panics (RData.from_string_buffer stdExt typ) (BrokenData typ) := by
  unfold RData.from_string_buffer BrokenData
  have hf := schema_form typ
  cases h : schema typ with
  | none =>
    rw [h] at hf
    intro p rest hu
    exact ⟨fun h => (by cases h), by rintro ⟨b, c, vs, mid, w, r, h', -⟩; rw [hf] at h'; cases h'⟩
  | some cs =>
    rw [h, Option.map_some] at hf
    intro p rest hu
    have := Panics.first (takes_fields cs) (panics_fields cs) (f := fun vs => (Pure.pure (⟨typ, vs⟩ : RData) : St StrBuf RData)) (fun _ => TextSafe.pure _) p rest hu
    refine Iff.trans this ?_
    rw [hf]
    simp only [Option.some.injEq]

theorem panics_set : Panics (RRset.parse stdExt) BrokenSet := by
  intro p rest hu
  unfold RRset.parse
  have := Panics.after takes_nextWord TextSafe.nextWord (fun wn => Panics.after (Takes.lift (Name.new wn)) (TextSafe.lift (Name.c04_new_limits_partial wn).1)
    fun name => Panics.after takes_nextWord TextSafe.nextWord fun wt => Panics.after (Takes.lift (parseNum 4294967295 wt)) (TextSafe.lift (parseNum_safe wt))
    fun ttl => Panics.after takes_classType TextSafe.classType fun ct => Panics.first (takes_data ct.2) (panics_data ct.2)
      (f := fun rd => (Pure.pure (⟨name, ct.2, ct.1, UInt32.ofNat ttl, [rd]⟩ : RRset) : St StrBuf RRset)) (fun _ => TextSafe.pure _)) p rest hu
  refine Iff.trans this ?_
  constructor
  · rintro ⟨wn, s1, h1, name, _, ⟨h2, rfl⟩, wt, s2, h3, ttl, _, ⟨h4, rfl⟩, ct, s3, h5, h6⟩
    refine ⟨wn, name, _, wt, ttl, _, s3, ct.2, h1, (nameText_iff wn name).1 h2, h3, parseNum_iff.1 h4, ?_, h6⟩
    rcases h5 with ⟨wc, s2', wy, k1, k2, k3, k4⟩ | ⟨wy, k1, -, k3, -⟩
    · exact .inl ⟨wc, _, s2', wy, k1, k2, k3, k4⟩
    · exact .inr ⟨wy, k1, k3⟩
  · rintro ⟨wn, name, s1, wt, ttl, s2, s3, typ, h1, h2, h3, h4, h5, h6⟩
    rcases h5 with ⟨wc, c, s2', wy, k1, k2, k3, k4⟩ | ⟨wy, k1, k3⟩
    · exact ⟨wn, s1, h1, name, s1, ⟨(nameText_iff wn _).2 h2, rfl⟩, wt, s2, h3, ttl, s2, ⟨parseNum_iff.2 h4, rfl⟩, (c, typ), s3,
        .inl ⟨wc, s2', wy, k1, k2, k3, k4⟩, h6⟩
    · refine ⟨wn, s1, h1, name, s1, ⟨(nameText_iff wn _).2 h2, rfl⟩, wt, s2, h3, ttl, s2, ⟨parseNum_iff.2 h4, rfl⟩, (.IN, typ), s3,
        .inr ⟨wy, k1, ?_, k3, rfl⟩, h6⟩
      intro c hc
      have := any_only ((type_iff wy _).2 k3) ((class_iff wy c).2 hc)
      subst this
      obtain ⟨b, c, vs, mid, w, r, h', -⟩ := h6
      cases h'

end R53
