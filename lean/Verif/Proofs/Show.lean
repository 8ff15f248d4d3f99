import Verif.Model.Show
import Verif.Spec.Show
import Verif.Props.Text
/-!
# Lemmas on the printed form of messages
-/
namespace R53

/-! ## Cutting texts -/

theorem cut {α : Type} {d : α} {a b r s : List α} (ha : d ∉ a) (hb : d ∉ b) (h : a ++ d :: r = b ++ d :: s) : a = b ∧ r = s := by
  induction a generalizing b with
  | nil =>
    cases b with
    | nil => simpa using h
    | cons y b => simp at h; exact absurd (by simp [h.1]) hb
  | cons x a ih =>
    cases b with
    | nil => simp at h; exact absurd (by simp [h.1]) ha
    | cons y b =>
      simp only [List.cons_append, List.cons.injEq] at h
      obtain ⟨h1, h2⟩ := ih (b := b) (fun h' => ha (by simp [h'])) (fun h' => hb (by simp [h'])) h.2
      exact ⟨by rw [h.1, h1], h2⟩

theorem cutLit {d : UInt8} {lit rest a b r s : List UInt8} (hl : lit = d :: rest) (ha : d ∉ a) (hb : d ∉ b)
    (h : a ++ (lit ++ r) = b ++ (lit ++ s)) : a = b ∧ r = s := by
  subst hl
  obtain ⟨h1, h2⟩ := cut ha hb h
  exact ⟨h1, List.append_cancel_left h2⟩

theorem word_not {t : List UInt8} (h : Word t) (d : UInt8) (hd : d.toNat < 33) : d ∉ t := by
  intro hm
  have := (h.2 d hm).1
  rw [UInt8.le_iff_toNat_le] at this
  simp at this; omega

theorem decimal_not (n : Nat) (d : UInt8) (hd : isAsciiDigit d = false) : d ∉ decimal n := by
  intro h; rw [(decimal_digits n).2 d h] at hd; simp at hd

theorem decimal_inj {a b : Nat} (h : decimal a = decimal b) : a = b := by
  have h1 := parseNum_decimal (max := max a b) a (by omega)
  have h2 := parseNum_decimal (max := max a b) b (by omega)
  rw [h, h2] at h1; simpa using h1.symm

/-! ## Header -/

theorem opcode_inj (a b : Opcode) (h : a.to_str = b.to_str) : a = b := by
  revert h; cases a <;> cases b <;> decide +kernel
theorem opcode_not (a : Opcode) : (44 : UInt8) ∉ a.to_str := by cases a <;> decide +kernel
theorem rcode_not (a : Rcode) : (44 : UInt8) ∉ a.to_str := by cases a <;> decide +kernel

theorem flag_inj (a b : HeaderFlag) (r s : List UInt8) (h : a.spaced ++ r = b.spaced ++ s) : a = b ∧ r = s := by
  have hl : a.spaced.length = b.spaced.length := by cases a <;> cases b <;> decide +kernel
  obtain ⟨h1, h2⟩ := List.append_inj h hl
  exact ⟨by revert h1; cases a <;> cases b <;> decide +kernel, h2⟩

theorem flags_inj : ∀ (a b : List HeaderFlag), a.flatMap HeaderFlag.spaced = b.flatMap HeaderFlag.spaced → a = b
  | [], [], _ => rfl
  | [], b :: bs, h => by simp [HeaderFlag.spaced] at h
  | a :: as, [], h => by simp [HeaderFlag.spaced] at h
  | a :: as, b :: bs, h => by
    rw [List.flatMap_cons, List.flatMap_cons] at h
    obtain ⟨h1, h2⟩ := flag_inj a b _ _ h
    rw [h1, flags_inj as bs h2]

theorem flags_not (a : List HeaderFlag) : (59 : UInt8) ∉ a.flatMap HeaderFlag.spaced := by
  intro h
  obtain ⟨f, _, h⟩ := List.mem_flatMap.1 h
  revert h; cases f <;> decide +kernel

theorem and_bit (a k : Nat) : a &&& 2 ^ k = if a.testBit k then 2 ^ k else 0 := by
  apply Nat.eq_of_testBit_eq
  intro i
  rw [Nat.testBit_and, Nat.testBit_two_pow]
  by_cases h : k = i
  · subst h
    cases hb : a.testBit k <;> simp [Nat.testBit_two_pow]
  · cases hb : a.testBit k <;> simp [Nat.testBit_two_pow, h]

theorem flag_mask_bit (f : HeaderFlag) : ∃ k, f.flag_mask.toNat = 2 ^ k := by
  cases f
  · exact ⟨15, by decide⟩
  · exact ⟨10, by decide⟩
  · exact ⟨9, by decide⟩
  · exact ⟨8, by decide⟩
  · exact ⟨7, by decide⟩
  · exact ⟨5, by decide⟩
  · exact ⟨4, by decide⟩

theorem and_mask (w : UInt16) (f : HeaderFlag) : w &&& f.flag_mask = if HeaderFlag.is_flag_set w f then f.flag_mask else 0 := by
  obtain ⟨k, hk⟩ := flag_mask_bit f
  have h0 : (0 : UInt16).toNat = 0 := rfl
  have h1 : (w &&& f.flag_mask).toNat = if w.toNat.testBit k then 2 ^ k else 0 := by
    rw [UInt16.toNat_and, hk, and_bit]
  have hp : 2 ^ k ≠ 0 := Nat.pos_iff_ne_zero.1 (Nat.two_pow_pos k)
  unfold HeaderFlag.is_flag_set
  by_cases hb : w.toNat.testBit k = true
  · rw [if_pos hb] at h1
    have : w &&& f.flag_mask ≠ 0 := fun h => hp (by rw [← h1, h, h0])
    rw [if_pos (by simpa using this)]
    exact UInt16.toNat_inj.1 (by rw [h1, hk])
  · rw [if_neg hb] at h1
    have : w &&& f.flag_mask = 0 := UInt16.toNat_inj.1 (by rw [h1, h0])
    rw [this]; simp

theorem flag_word (w : UInt16) (h : w &&& 0x87b0 = w) : w = (w &&& HeaderFlag.QueryRespone.flag_mask) ||| ((w &&& HeaderFlag.AuthAnswer.flag_mask) |||
    ((w &&& HeaderFlag.Truncation.flag_mask) ||| ((w &&& HeaderFlag.RecursionDesired.flag_mask) ||| ((w &&& HeaderFlag.RecursionAvailable.flag_mask) |||
    ((w &&& HeaderFlag.AuthenticData.flag_mask) ||| (w &&& HeaderFlag.CheckDisable.flag_mask)))))) := by
  have dist : ∀ a b c : UInt16, (a &&& b) ||| (a &&& c) = a &&& (b ||| c) := by
    intro a b c
    apply UInt16.toNat_inj.1
    simp only [UInt16.toNat_or, UInt16.toNat_and]
    rw [← Nat.and_or_distrib_left]
  rw [dist, dist, dist, dist, dist, dist]
  exact h.symm

theorem flag_eq {v w : UInt16} (hv : v &&& 0x87b0 = v) (hw : w &&& 0x87b0 = w) (h : HeaderFlag.setted_flags v = HeaderFlag.setted_flags w) : v = w := by
  have key : ∀ f, HeaderFlag.is_flag_set v f = HeaderFlag.is_flag_set w f := by
    intro f
    have hm : f ∈ HeaderFlag.setted_flags v ↔ f ∈ HeaderFlag.setted_flags w := by rw [h]
    simp only [HeaderFlag.setted_flags, List.mem_filter] at hm
    have hf : f ∈ [HeaderFlag.QueryRespone, .AuthAnswer, .Truncation, .RecursionDesired, .RecursionAvailable, .AuthenticData, .CheckDisable] := by
      cases f <;> simp
    simp only [hf, true_and] at hm
    exact Bool.eq_iff_iff.2 hm
  rw [flag_word v hv, flag_word w hw]
  simp only [and_mask, key]

theorem header_cut {h k : Header} {r s : List UInt8} (e : h.to_string ++ r = k.to_string ++ s) :
    h.id = k.id ∧ h.opcode = k.opcode ∧ h.rcode = k.rcode ∧ h.setted_flags = k.setted_flags ∧ h.qd_count = k.qd_count ∧
    h.an_count = k.an_count ∧ h.ns_count = k.ns_count ∧ h.ar_count = k.ar_count ∧ r = s := by
  have u : ∀ {a b : UInt16}, decimal a.toNat = decimal b.toNat → a = b := fun h => UInt16.toNat_inj.1 (decimal_inj h)
  have n44 : ∀ a : UInt16, (44 : UInt8) ∉ decimal a.toNat := fun a => decimal_not _ _ (by decide)
  unfold Header.to_string at e
  simp only [List.append_assoc] at e
  have e := List.append_cancel_left e
  obtain ⟨h1, e⟩ := cutLit (d := 44) (rest := (ascii ", status: ").drop 1) (by decide +kernel) (opcode_not _) (opcode_not _) e
  obtain ⟨h2, e⟩ := cutLit (d := 44) (rest := (ascii ", id: ").drop 1) (by decide +kernel) (rcode_not _) (rcode_not _) e
  obtain ⟨h3, e⟩ := cutLit (d := 10) (rest := []) (by decide +kernel) (decimal_not _ _ (by decide)) (decimal_not _ _ (by decide)) e
  have e := List.append_cancel_left e
  obtain ⟨h4, e⟩ := cutLit (d := 59) (rest := [32]) (by decide +kernel) (flags_not _) (flags_not _) e
  have e := List.append_cancel_left e
  obtain ⟨h5, e⟩ := cutLit (d := 44) (rest := [32]) (by decide +kernel) (n44 _) (n44 _) e
  have e := List.append_cancel_left e
  obtain ⟨h6, e⟩ := cutLit (d := 44) (rest := [32]) (by decide +kernel) (n44 _) (n44 _) e
  have e := List.append_cancel_left e
  obtain ⟨h7, e⟩ := cutLit (d := 44) (rest := [32]) (by decide +kernel) (n44 _) (n44 _) e
  have e := List.append_cancel_left e
  obtain ⟨h8, e⟩ := cutLit (d := 44) (rest := [32]) (by decide +kernel) (n44 _) (n44 _) e
  exact ⟨u h3, opcode_inj _ _ h1, c31_rcode_distinct _ _ h2, flags_inj _ _ h4, u h5, u h6, u h7, u h8, e⟩

/-! ## Question -/

theorem question_text {q : Question} (h : q.Printable) : ∃ nt, q.name.to_string = .ok nt ∧ Word nt ∧ Name.new nt = .ok q.name ∧
    q.to_string = .ok (nt ++ ascii " " ++ q.class_.to_str ++ ascii " " ++ q.typ.to_str) := by
  obtain ⟨nt, h1, h2, h3⟩ := plainName_round h.1
  refine ⟨nt, h1, h2, h3, ?_⟩
  unfold Question.to_string
  rw [h1, Res.bind_ok]; rfl

theorem question_cut {q p : Question} (hq : q.Printable) (hp : p.Printable) {tq tp r s : List UInt8} (h1 : q.to_string = .ok tq)
    (h2 : p.to_string = .ok tp) (e : tq ++ (ascii "\n\n" ++ r) = tp ++ (ascii "\n\n" ++ s)) : q = p ∧ r = s := by
  obtain ⟨nq, a1, a2, a3, a4⟩ := question_text hq
  obtain ⟨np, b1, b2, b3, b4⟩ := question_text hp
  rw [h1] at a4; cases a4
  rw [h2] at b4; cases b4
  simp only [List.append_assoc] at e
  obtain ⟨c1, e⟩ := cutLit (d := 32) (rest := []) (by decide +kernel) (word_not a2 32 (by decide)) (word_not b2 32 (by decide)) e
  obtain ⟨c2, e⟩ := cutLit (d := 32) (rest := []) (by decide +kernel) (word_not (class_word _) 32 (by decide)) (word_not (class_word _) 32 (by decide)) e
  obtain ⟨c3, e⟩ := cutLit (d := 10) (rest := [10]) (by decide +kernel) (word_not (type_word _) 10 (by decide)) (word_not (type_word _) 10 (by decide)) e
  refine ⟨?_, e⟩
  have n : q.name = p.name := by rw [c1, b3] at a3; simpa using a3.symm
  have c := c31_class_distinct _ _ hq.2.1 hp.2.1 c2
  have t := c31_type_distinct_partial _ _ hq.2.2.1 hp.2.2.1 hq.2.2.2 hp.2.2.2 c3
  cases q; cases p; simp_all

/-! ## EDNS -/

theorem edns_cut {e f : Edns} {r s : List UInt8} (h : e.to_string ++ (ascii ";; QUESTION SECTION:\n" ++ r) = f.to_string ++ (ascii ";; QUESTION SECTION:\n" ++ s)) :
    e.version = f.version ∧ e.dnssec_aware = f.dnssec_aware ∧ e.udp_size = f.udp_size ∧ r = s := by
  unfold Edns.to_string at h
  simp only [List.append_assoc] at h
  have h := List.append_cancel_left h
  obtain ⟨h1, h⟩ := cutLit (d := 44) (rest := [32]) (by decide +kernel) (decimal_not _ _ (by decide)) (decimal_not _ _ (by decide)) h
  have hv : e.version = f.version := UInt8.toNat_inj.1 (decimal_inj h1)
  have hlit : ascii ";; QUESTION SECTION:\n" = 59 :: (ascii ";; QUESTION SECTION:\n").drop 1 := by decide +kernel
  have e1 : ascii "flags: do; " = 102 :: (ascii "flags: do; ").drop 1 := by decide +kernel
  have e2 : ascii "udp: " = 117 :: (ascii "udp: ").drop 1 := by decide +kernel
  have fin : ∀ {r s : List UInt8}, ascii "udp: " ++ (decimal e.udp_size.toNat ++ (ascii ";; QUESTION SECTION:\n" ++ r)) =
      ascii "udp: " ++ (decimal f.udp_size.toNat ++ (ascii ";; QUESTION SECTION:\n" ++ s)) → e.udp_size = f.udp_size ∧ r = s := by
    intro r s h
    have h := List.append_cancel_left h
    obtain ⟨h1, h⟩ := cutLit hlit (decimal_not _ _ (by decide)) (decimal_not _ _ (by decide)) h
    exact ⟨UInt16.toNat_inj.1 (decimal_inj h1), h⟩
  cases he : e.dnssec_aware <;> cases hf : f.dnssec_aware <;> rw [he, hf] at h <;> simp only [Bool.false_eq_true, if_false, if_true, List.nil_append] at h
  · obtain ⟨h2, h3⟩ := fin h
    exact ⟨hv, rfl, h2, h3⟩
  · rw [e1, e2] at h; simp at h
  · rw [e1, e2] at h; simp at h
  · obtain ⟨h2, h3⟩ := fin (List.append_cancel_left h)
    exact ⟨hv, rfl, h2, h3⟩

/-! ## Lines -/

theorem lines_cut : ∀ {L M : List (List UInt8)} {r s : List UInt8}, (∀ l ∈ L, l ≠ [] ∧ 10 ∉ l) → (∀ l ∈ M, l ≠ [] ∧ 10 ∉ l) →
    L.flatMap (· ++ [10]) ++ 10 :: r = M.flatMap (· ++ [10]) ++ 10 :: s → L = M ∧ r = s
  | [], [], r, s, _, _, h => by simpa using h
  | [], m :: M, r, s, _, hM, h => by
    exfalso
    obtain ⟨h1, h2⟩ := hM m (by simp)
    cases m with
    | nil => exact h1 rfl
    | cons c m => simp at h; exact h2 (by simp [← h.1])
  | l :: L, [], r, s, hL, _, h => by
    exfalso
    obtain ⟨h1, h2⟩ := hL l (by simp)
    cases l with
    | nil => exact h1 rfl
    | cons c l => simp at h; exact h2 (by simp [h.1])
  | l :: L, m :: M, r, s, hL, hM, h => by
    simp only [List.flatMap_cons, List.append_assoc, List.singleton_append] at h
    obtain ⟨h1, h2⟩ := cut (hL l (by simp)).2 (hM m (by simp)).2 h
    obtain ⟨h3, h4⟩ := lines_cut (fun x hx => hL x (by simp [hx])) (fun x hx => hM x (by simp [hx])) h2
    exact ⟨by rw [h1, h3], h4⟩

theorem lines_inj {L M : List (List UInt8)} (hL : ∀ l ∈ L, l ≠ [] ∧ 10 ∉ l) (hM : ∀ l ∈ M, l ≠ [] ∧ 10 ∉ l)
    (h : L.flatMap (· ++ [10]) = M.flatMap (· ++ [10])) : L = M := (lines_cut (r := []) (s := []) hL hM (by rw [h])).1

theorem lines_inj' : ∀ {L M : List (List UInt8)}, (∀ l ∈ L, 10 ∉ l) → (∀ l ∈ M, 10 ∉ l) → L.flatMap (· ++ [10]) = M.flatMap (· ++ [10]) → L = M
  | [], [], _, _, _ => rfl
  | [], m :: M, _, _, h => by simp at h
  | l :: L, [], _, _, h => by simp at h
  | l :: L, m :: M, hL, hM, h => by
    simp only [List.flatMap_cons, List.append_assoc, List.singleton_append] at h
    obtain ⟨h1, h2⟩ := cut (hL l (by simp)) (hM m (by simp)) h
    rw [h1, lines_inj' (fun x hx => hL x (by simp [hx])) (fun x hx => hM x (by simp [hx])) h2]

theorem from_str_empty (x : Ext) : RRset.from_str x .release [] = .err := by rfl

/-- the text of a section is one line for each record other than OPT, and each line reads back -/
theorem section_lines {x : Ext} (hx : x.Laws) (s : Section) (h : ∀ r ∈ Section.visible s, r.Printable) :
    ∃ L : List (List UInt8), s.to_string x = .ok (L.flatMap (· ++ [10])) ∧ (∀ l ∈ L, l ≠ [] ∧ 10 ∉ l) ∧
      ∀ b, L.map (RRset.from_str x b) = (Section.visibleRecords s).map Res.ok := by
  have key : ∀ sets : List RRset, (∀ r ∈ Section.visible (some sets), r.Printable) → ∃ L : List (List UInt8),
      Section.showSets x sets = .ok (L.flatMap (· ++ [10])) ∧ (∀ l ∈ L, l ≠ [] ∧ 10 ∉ l) ∧
      ∀ b, L.map (RRset.from_str x b) = (Section.visibleRecords (some sets)).map Res.ok := by
    intro sets
    induction sets with
    | nil => intro _; exact ⟨[], rfl, by simp, fun _ => rfl⟩
    | cons r sets ih =>
      intro h
      by_cases ho : r.typ = .OPT
      · have e : Section.visible (some (r :: sets)) = Section.visible (some sets) := by
          unfold Section.visible; simp [ho]
        obtain ⟨L, h1, h2, h3⟩ := ih (by rw [← e]; exact h)
        refine ⟨L, ?_, h2, ?_⟩
        · unfold Section.showSets; rw [if_neg (by simpa using ho), Res.bind_ok, h1]; rfl
        · unfold Section.visibleRecords at h3 ⊢; rw [e]; exact h3
      · have e : Section.visible (some (r :: sets)) = r :: Section.visible (some sets) := by
          unfold Section.visible; simp [ho]
        rw [e] at h
        obtain ⟨L, h1, h2, h3⟩ := ih (fun q hq => h q (by simp [hq]))
        have hr := h r (by simp)
        obtain ⟨M, m1, m2, m3, m4, -⟩ := c70_round_partial x hx .release r hr
        have mm : ∀ b, M.map (RRset.from_str x b) = r.records.map Res.ok := by
          intro b
          obtain ⟨N, n1, n2, n3, n4, -⟩ := c70_round_partial x hx b r hr
          rw [m1] at n1
          have hMN := lines_inj' (fun l hl => m2 l hl) n2 (Res.ok.inj n1)
          subst hMN
          unfold RRset.records
          rw [if_neg hr.2.2.2.1, List.map_map]
          apply List.ext_getElem?
          intro i
          rw [List.getElem?_map, List.getElem?_map]
          cases hl : M[i]? with
          | none =>
            rw [List.getElem?_eq_none_iff] at hl
            rw [List.getElem?_eq_none (by omega)]; rfl
          | some l =>
            obtain ⟨hi, -⟩ := List.getElem?_eq_some_iff.1 hl
            have hrd : r.rdatas[i]? = some r.rdatas[i] := List.getElem?_eq_getElem (by omega)
            rw [hrd]
            simp only [Option.map_some, Function.comp]
            rw [(n4 i l _ hl hrd).1]
        refine ⟨M ++ L, ?_, ?_, ?_⟩
        · unfold Section.showSets; rw [if_pos (by simpa using ho), m1, h1]; simp [Res.bind_ok]
        · intro l hl
          rcases List.mem_append.1 hl with hl | hl
          · refine ⟨fun h0 => ?_, m2 l hl⟩
            have : RRset.from_str x .release l ∈ M.map (RRset.from_str x .release) := List.mem_map_of_mem hl
            rw [mm .release] at this
            obtain ⟨q, _, hq⟩ := List.mem_map.1 this
            rw [h0, from_str_empty] at hq; simp at hq
          · exact h2 l hl
        · intro b
          unfold Section.visibleRecords at h3 ⊢
          rw [e, List.flatMap_cons, List.map_append, List.map_append, mm b, h3 b]
  cases s with
  | none => exact ⟨[], rfl, by simp, fun _ => rfl⟩
  | some sets => exact key sets h

end R53
