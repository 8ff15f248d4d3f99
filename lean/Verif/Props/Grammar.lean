import Verif.Proofs.Grammar3
import Verif.Props.Build
import Verif.Props.Show
/-!
# C84: exactly which record lines are read, and as what

With the texts of addresses and base64 written out (`stdExt`), nothing about the text format is left as a parameter.
-/
namespace R53
open StrBuf StdText

/-- exactly which texts of any characters are read as a type, a class and a response code: the mnemonics of the IANA registry, `RESERVED` for a code without
one, in any letter case, and those with `ſ` for S or `ı` for I -/
theorem c31_exact (w : List UInt8) :
    (∀ t, RRType.from_str w = .ok t ↔ TypeText w t) ∧ (∀ c, RRClass.from_str w = .ok c ↔ ClassText w c) ∧ ∀ c, Rcode.from_str w = .ok c ↔ RcodeText w c :=
  ⟨type_iff w, class_iff w, rcode_iff w⟩

theorem no_empty_set {r : RRset} : ¬ SetText [] r := by
  rintro ⟨wn, s1, wt, s2, s3, rd, ⟨b, h, -, h3, -⟩, -⟩
  have : wn = [] := by
    have := congrArg List.length h
    simp at this
    exact List.length_eq_zero_iff.1 (by omega)
  exact h3 this

/-- `RRset::from_str` answers a record set exactly on the texts of the grammar, and answers the set the text denotes -/
theorem c84_set_iff (m : Build) (s : List UInt8) (hs : isUtf8 s = true) (r : RRset) :
    RRset.from_str stdExt m s = .ok r ↔ ∃ t, Trimmed s t ∧ SetText t r := by
  have key : (∃ t, Trimmed s t ∧ SetText t r) ↔ SetText (trim s) r := by
    constructor
    · rintro ⟨t, h1, h2⟩; rw [← (trim_iff s t).1 h1]; exact h2
    · intro h; exact ⟨_, (trim_iff s _).2 rfl, h⟩
  rw [key, ← parse_iff (trim_utf8 hs)]
  unfold RRset.from_str
  by_cases hm : m = .release ∨ trim s ≠ []
  · rw [new_safe hm, Res.bind_ok]
  · have h1 : m = .debug := by cases m <;> simp_all
    have h2 : trim s = [] := Classical.byContradiction fun h => hm (.inr h)
    rw [h1, h2]
    constructor
    · intro h; cases h
    · intro h
      exact (no_empty_set ((parse_iff (s := []) rfl r).1 h)).elim

/-- a text has at most one reading -/
theorem c84_unambiguous (t : List UInt8) (ht : isUtf8 t = true) (q r : RRset) (hq : SetText t q) (hr : SetText t r) : q = r := by
  have h1 := (parse_iff ht q).2 hq
  have h2 := (parse_iff ht r).2 hr
  rw [h1] at h2
  exact Res.ok.inj h2

/-- a text in ASCII without a reading is refused -/
theorem c84_refused (s : List UInt8) (hs : ∀ c ∈ s, c.toNat < 0x80) : RRset.from_str stdExt .release s = .err ↔ ∀ t r, Trimmed s t → ¬ SetText t r := by
  have hi := c84_set_iff .release s (isUtf8_ascii hs)
  constructor
  · intro h t r ht hr
    rw [(hi r).2 ⟨t, ht, hr⟩] at h
    cases h
  · intro h
    cases e : RRset.from_str stdExt .release s with
    | ok r =>
      obtain ⟨t, ht, hr⟩ := (hi r).1 e
      exact absurd hr (h t r ht)
    | err => rfl
    | panic => exact absurd e (c71_rrset_ascii_partial stdExt .release s hs (.inl rfl))

/-- several lines: each has a reading, all of the same type; the set has the owner, class and TTL of the first and the data of all -/
theorem c84_sets_iff (m : Build) (ss : List (List UInt8)) (hs : ∀ s ∈ ss, isUtf8 s = true) (r : RRset) :
    RRset.from_strs stdExt m ss = .ok r ↔ ∃ q qs, List.Forall₂ (fun s p => ∃ t, Trimmed s t ∧ SetText t p) ss (q :: qs) ∧ OneSet q qs ∧
      r = { q with rdatas := q.rdatas ++ qs.flatMap RRset.rdatas } := by
  have all : ∀ (ss : List (List UInt8)) (qs : List RRset), (∀ s ∈ ss, isUtf8 s = true) →
      (ss.map (RRset.from_str stdExt m) = qs.map Res.ok ↔ List.Forall₂ (fun s p => ∃ t, Trimmed s t ∧ SetText t p) ss qs) := by
    intro ss
    induction ss with
    | nil =>
      intro qs _
      cases qs with
      | nil => exact ⟨fun _ => .nil, fun _ => rfl⟩
      | cons q qs => exact ⟨fun h => (by simp at h), fun h => (by cases h)⟩
    | cons s ss ih =>
      intro qs hu
      cases qs with
      | nil => exact ⟨fun h => (by simp at h), fun h => (by cases h)⟩
      | cons q qs =>
        have h1 := c84_set_iff m s (hu s (by simp)) q
        have h2 := ih qs (fun x hx => hu x (List.mem_cons_of_mem _ hx))
        simp only [List.map_cons, List.cons.injEq]
        constructor
        · rintro ⟨a, b⟩; exact .cons (h1.1 a) (h2.1 b)
        · intro h; cases h with
          | cons a b => exact ⟨h1.2 a, h2.2 b⟩
  rw [c70_lines]
  constructor
  · rintro ⟨q, qs, h1, h2, h3⟩; exact ⟨q, qs, (all ss (q :: qs) hs).1 h1, h2, h3⟩
  · rintro ⟨q, qs, h1, h2, h3⟩; exact ⟨q, qs, (all ss (q :: qs) hs).2 h1, h2, h3⟩

theorem no_empty_data {rd : RData} : ¬ DataText [] rd := by
  have nf : ∀ w r, ¬ FirstWord [] w r := by
    rintro w r ⟨b, h, -, h3, -⟩
    have := congrArg List.length h
    simp at this
    exact h3 (List.length_eq_zero_iff.1 (by omega))
  have nc : ∀ d r, ¬ CharStringThen [] d r := by
    rintro d r ⟨b, body, h, -⟩
    have := congrArg List.length h
    simp at this
  have nt : ∀ ds, ¬ CharStrings [] ds := by
    intro ds h
    cases h with
    | one h => exact nc _ _ h
    | more h _ => exact nc _ _ h
  have nk : ∀ k v r, ¬ FieldText k [] v r := by
    intro k v r h
    cases k <;> cases v <;> first
      | exact h.elim
      | exact nf _ _ h.1
      | exact nt _ h.1
      | exact nc _ _ h
      | exact h.1 rfl
      | (obtain ⟨w, h, -⟩ := h; exact nf _ _ h)
      | (obtain ⟨w, vs, h, -⟩ := h; exact nf _ _ h)
  rintro ⟨rest, ks, h1, h2⟩
  cases ks with
  | nil =>
    have : ∀ t, dataForm t ≠ some [] := by intro t; cases t <;> simp [dataForm]
    exact this _ h1
  | cons k ks =>
    generalize rd.fields = vs at h2
    cases vs with
    | nil => exact h2
    | cons v vs =>
      obtain ⟨mid, h3, -⟩ := h2
      exact nk _ _ _ h3

/-- `RData::from_str` answers data exactly on the texts of the notation of the type -/
theorem c84_rdata_iff (m : Build) (typ : RRType) (s : List UInt8) (hs : isUtf8 s = true) (rd : RData) :
    RData.from_str stdExt m typ s = .ok rd ↔ rd.kind = typ ∧ DataText s rd := by
  rw [← parse_data_iff hs]
  unfold RData.from_str
  by_cases hm : m = .release ∨ s ≠ []
  · rw [new_safe hm, Res.bind_ok]
  · have h1 : m = .debug := by cases m <;> simp_all
    have h2 : s = [] := Classical.byContradiction fun h => hm (.inr h)
    rw [h1, h2]
    constructor
    · intro h; cases h
    · intro h
      exact (no_empty_data ((parse_data_iff (s := []) rfl typ rd).1 h).2).elim

/-- the words of a line: types and classes by their mnemonics, times, and names -/
theorem c84_words (w : List UInt8) :
    (∀ t, RRType.from_str w = .ok t ↔ TypeText w t) ∧ (∀ c, RRClass.from_str w = .ok c ↔ ClassText w c) ∧
    (∀ n, Name.new w = .ok n ↔ NameText w n) ∧ (∀ v, Field.timestampParse w = .ok v ↔ StampText w v) ∧
    (∀ max n, parseNum max w = .ok n ↔ NumberText max w n) :=
  ⟨type_iff w, class_iff w, nameText_iff w, stamp_iff w, fun _ _ => parseNum_iff⟩

/-! ## Exactly which texts panic -/

/-- a time panics exactly if it is fourteen octets and a character lies across a place where it is cut, all before it being in order -/
theorem c71_stamp_exact (w : List UInt8) : Field.timestampParse w = .panic ↔ BrokenStamp w := stamp_panic w

theorem no_empty_broken : ¬ BrokenSet [] := by
  rintro ⟨wn, n, s1, wt, ttl, s2, s3, typ, ⟨b, h, -, h3, -⟩, -⟩
  have := congrArg List.length h
  simp at this
  exact h3 (List.length_eq_zero_iff.1 (by omega))

/-- `RRset::from_str` panics exactly on a record up to a broken time and, in a debug build, on white space -/
theorem c71_set_exact (m : Build) (s : List UInt8) (hs : isUtf8 s = true) : RRset.from_str stdExt m s = .panic ↔ BadLine m s := by
  have key : (∃ t, Trimmed s t ∧ BrokenSet t) ↔ BrokenSet (trim s) := by
    constructor
    · rintro ⟨t, h1, h2⟩; rw [← (trim_iff s t).1 h1]; exact h2
    · intro h; exact ⟨_, (trim_iff s _).2 rfl, h⟩
  unfold BadLine
  rw [key, trim_iff, ← panics_set [] (trim s) (trim_utf8 hs)]
  unfold RRset.from_str
  by_cases hm : m = .release ∨ trim s ≠ []
  · rw [new_safe hm, Res.bind_ok]
    constructor
    · exact .inr
    · rintro (⟨h1, h2⟩ | h)
      · rcases hm with h | h
        · rw [h1] at h; cases h
        · exact absurd h2.symm h
      · exact h
  · have h1 : m = .debug := by cases m <;> simp_all
    have h2 : trim s = [] := Classical.byContradiction fun h => hm (.inr h)
    rw [h1, h2]
    exact ⟨fun _ => .inl ⟨rfl, rfl⟩, fun _ => rfl⟩

/-- so the outcome is known for every text: a set, an error, a panic -/
theorem c84_refused_exact (m : Build) (s : List UInt8) (hs : isUtf8 s = true) :
    RRset.from_str stdExt m s = .err ↔ (∀ t r, Trimmed s t → ¬ SetText t r) ∧ ¬ BadLine m s := by
  have hi := c84_set_iff m s hs
  rw [← c71_set_exact m s hs]
  constructor
  · intro h
    refine ⟨fun t r ht hr => ?_, by rw [h]; simp⟩
    rw [(hi r).2 ⟨t, ht, hr⟩] at h
    cases h
  · rintro ⟨h, hp⟩
    cases e : RRset.from_str stdExt m s with
    | ok r =>
      obtain ⟨t, ht, hr⟩ := (hi r).1 e
      exact absurd hr (h t r ht)
    | err => rfl
    | panic => exact absurd e hp

/-- the data of one record -/
theorem c71_rdata_exact (m : Build) (typ : RRType) (s : List UInt8) (hs : isUtf8 s = true) :
    RData.from_str stdExt m typ s = .panic ↔ (m = .debug ∧ s = []) ∨ BrokenData typ s := by
  rw [← panics_data typ [] s hs]
  unfold RData.from_str
  by_cases hm : m = .release ∨ s ≠ []
  · rw [new_safe hm, Res.bind_ok]
    constructor
    · exact .inr
    · rintro (⟨h1, h2⟩ | h)
      · rcases hm with h | h
        · rw [h1] at h; cases h
        · exact absurd h2 h
      · exact h
  · have h1 : m = .debug := by cases m <;> simp_all
    have h2 : s = [] := Classical.byContradiction fun h => hm (.inr h)
    rw [h1, h2]
    exact ⟨fun _ => .inl ⟨rfl, rfl⟩, fun _ => rfl⟩

/-- several lines: there are none, or the first line that is not read into the set panics -/
theorem c71_sets_exact (m : Build) (ss : List (List UInt8)) (hs : ∀ s ∈ ss, isUtf8 s = true) :
    RRset.from_strs stdExt m ss = .panic ↔ ss = [] ∨ ∃ earlier s later qs, ss = earlier ++ s :: later ∧
      List.Forall₂ (fun s p => ∃ t, Trimmed s t ∧ SetText t p) earlier qs ∧ (∀ q ∈ qs.head?, q.typ ≠ .OPT ∧ ∀ p ∈ qs, p.typ = q.typ) ∧ BadLine m s := by
  have one : ∀ (s : List UInt8) r, RRset.from_str stdExt m s = .ok r → ∃ rd, r.rdatas = [rd] := by
    intro s r h
    unfold RRset.from_str at h
    obtain ⟨b, -, h⟩ := Res.bind_eq_ok.1 h
    unfold RRset.parse at h
    obtain ⟨_, _, -, h⟩ := St.bind_ok_inv (Prod.ext h rfl : _ = (Res.ok r, _))
    obtain ⟨_, _, -, h⟩ := St.bind_ok_inv h
    obtain ⟨_, _, -, h⟩ := St.bind_ok_inv h
    obtain ⟨_, _, -, h⟩ := St.bind_ok_inv h
    obtain ⟨_, _, -, h⟩ := St.bind_ok_inv h
    obtain ⟨_, _, -, h⟩ := St.bind_ok_inv h
    cases h
    exact ⟨_, rfl⟩
  have fold : ∀ (ss : List (List UInt8)) (q : RRset), (∀ s ∈ ss, isUtf8 s = true) → (RRset.strsFold stdExt m q ss = .panic ↔
      ∃ earlier s later qs, ss = earlier ++ s :: later ∧
        List.Forall₂ (fun s p => ∃ t, Trimmed s t ∧ SetText t p) earlier qs ∧ (∀ p ∈ qs, p.typ = q.typ) ∧ BadLine m s) := by
    intro ss
    induction ss with
    | nil => intro q _; exact ⟨fun h => (by cases h), by rintro ⟨e, s, l, qs, h, -⟩; simp at h⟩
    | cons s ss ih =>
      intro q hu
      have h0 := hu s (by simp)
      have hr := c84_set_iff m s h0
      have hp := c71_set_exact m s h0
      rw [RRset.strsFold, Res.bind_eq_panic]
      constructor
      · rintro (h | ⟨r, h1, h2⟩)
        · exact ⟨[], s, ss, [], rfl, .nil, by simp, hp.1 h⟩
        · obtain ⟨rd, e⟩ := one s r h1
          by_cases ht : q.typ = r.typ
          · rw [if_neg (by simpa using ht)] at h2
            simp only [e] at h2
            obtain ⟨er, s', l, qs, k1, k2, k3, k4⟩ := (ih _ (fun x hx => hu x (List.mem_cons_of_mem _ hx))).1 h2
            refine ⟨s :: er, s', l, r :: qs, by simp [k1], .cons ((hr r).1 h1) k2, ?_, k4⟩
            intro p hp
            rcases List.mem_cons.1 hp with rfl | hp
            · exact ht.symm
            · exact k3 p hp
          · rw [if_pos (by simpa using ht)] at h2
            cases h2
      · rintro ⟨er, s', l, qs, k1, k2, k3, k4⟩
        cases k2 with
        | nil =>
          simp only [List.nil_append, List.cons.injEq] at k1
          obtain ⟨rfl, rfl⟩ := k1
          exact .inl (hp.2 k4)
        | @cons a r er qs k k2 =>
          simp only [List.cons_append, List.cons.injEq] at k1
          obtain ⟨rfl, rfl⟩ := k1
          have h1 := (hr r).2 k
          refine .inr ⟨r, h1, ?_⟩
          obtain ⟨rd, e⟩ := one _ r h1
          rw [if_neg (by simpa using (k3 r (by simp)).symm)]
          simp only [e]
          exact (ih _ (fun x hx => hu x (List.mem_cons_of_mem _ hx))).2 ⟨er, s', l, qs, rfl, k2, fun p hp => k3 p (by simp [hp]), k4⟩
  cases ss with
  | nil => exact ⟨fun _ => .inl rfl, fun _ => rfl⟩
  | cons s ss =>
    have h0 := hs s (by simp)
    have hr := c84_set_iff m s h0
    have hp := c71_set_exact m s h0
    have hu : ∀ x ∈ ss, isUtf8 x = true := fun x hx => hs x (List.mem_cons_of_mem _ hx)
    have shape : RRset.from_strs stdExt m (s :: ss) = (RRset.from_str stdExt m s >>= fun last =>
        if ss = [] then .ok last else if last.typ = .OPT then .err else RRset.strsFold stdExt m last ss) := by
      unfold RRset.from_strs
      cases ss <;> rfl
    rw [shape, Res.bind_eq_panic]
    constructor
    · rintro (h | ⟨r, h1, h2⟩)
      · exact .inr ⟨[], s, ss, [], rfl, .nil, by simp, hp.1 h⟩
      · split at h2
        · cases h2
        · split at h2
          · cases h2
          · rename_i hn ho
            obtain ⟨er, s', l, qs, k1, k2, k3, k4⟩ := (fold ss r hu).1 h2
            refine .inr ⟨s :: er, s', l, r :: qs, by simp [k1], .cons ((hr r).1 h1) k2, ?_, k4⟩
            intro q hq
            cases hq
            refine ⟨ho, fun p hp => ?_⟩
            rcases List.mem_cons.1 hp with rfl | hp
            · rfl
            · exact k3 p hp
    · rintro (h | ⟨er, s', l, qs, k1, k2, k3, k4⟩)
      · cases h
      · cases k2 with
        | nil =>
          simp only [List.nil_append, List.cons.injEq] at k1
          obtain ⟨rfl, rfl⟩ := k1
          exact .inl (hp.2 k4)
        | @cons a r er qs k k2 =>
          simp only [List.cons_append, List.cons.injEq] at k1
          obtain ⟨rfl, rfl⟩ := k1
          obtain ⟨j1, j2⟩ := k3 r rfl
          refine .inr ⟨r, (hr r).2 k, ?_⟩
          rw [if_neg (by simp), if_neg j1]
          exact (fold _ r hu).2 ⟨er, s', l, qs, rfl, k2, fun p hp => j2 p (by simp [hp]), k4⟩

/-- the second line panics: a character across the end of the year of the second time -/
theorem c71_sets_example : let bad := ascii "a. 1 IN RRSIG A 8 2 300 20200101000000 202" ++ [0xC3, 0xA9] ++ ascii "101000000"
    RRset.from_strs stdExt .release [ascii "a. 1 RRSIG A 8 2 300 20200101000000 20200101000000 7 b. Zm9v", bad] = .panic ∧ BadLine .release bad ∧
    RRset.from_strs stdExt .release [ascii "a. 1 A 1.2.3.4", ascii "b", bad] = .err := by
  refine ⟨by decide +kernel, (c71_set_exact _ _ (by decide +kernel)).1 (by decide +kernel), by decide +kernel⟩

/-- what follows the data is ignored without an error: here a second record -/
theorem c84_behind_ignored : RRset.from_str stdExt .release (ascii "a. 1 A 1.2.3.4 b. 2 A 5.6.7.8") =
    .ok ⟨Name.ofLabels [[97]], .A, .IN, 1, [⟨.A, [.ip [1, 2, 3, 4]]⟩]⟩ := by decide +kernel

/-- signs and odd times: `+1` and `-001` are accepted inside a time -/
example : RData.from_str stdExt .debug .RRSIG (ascii "A +8 002 300 2020+9+1122640 -00101010000+0 7 www.a. Zm9v YmE") =
    .ok ⟨.RRSIG, [.rrtype .A, .u8 8, .u8 2, .u32 300, .u32 1598963200, .u32 2225754240, .u16 7, .name (Name.ofLabels [[119, 119, 119], [97]]),
      .bytes (ascii "fooba")]⟩ := by decide +kernel

example : RRset.from_str stdExt .debug (ascii " www.a.  300 ch\taaaa 1::fF:1.2.3.4\n") =
    .ok ⟨Name.ofLabels [[119, 119, 119], [97]], .AAAA, .CH, 300, [⟨.AAAA, [.ip [0, 1, 0, 0, 0, 0, 0, 0, 0, 0, 0, 255, 1, 2, 3, 4]]⟩]⟩ := by decide +kernel

/-- so this line is in the grammar -/
example : ∃ t, Trimmed (ascii " www.a.  300 ch\taaaa 1::fF:1.2.3.4\n") t ∧ SetText t
    ⟨Name.ofLabels [[119, 119, 119], [97]], .AAAA, .CH, 300, [⟨.AAAA, [.ip [0, 1, 0, 0, 0, 0, 0, 0, 0, 0, 0, 255, 1, 2, 3, 4]]⟩]⟩ :=
  (c84_set_iff .debug _ (by decide +kernel) _).1 (by decide +kernel)

/-- and this is not: the address has a leading zero -/
example : ∀ t r, Trimmed (ascii "a. 1 A 1.2.3.04") t → ¬ SetText t r := (c84_refused _ (by decide)).1 (by decide +kernel)

/-! ## Round trips with these texts -/

/-- C70 without assumptions on the texts of addresses and base64 -/
theorem c70_std_partial (m : Build) (r : RRset) (h : r.Printable) :
    ∃ lines : List (List UInt8), r.to_string stdExt = .ok (lines.flatMap (· ++ [10])) ∧ (∀ l ∈ lines, 10 ∉ l) ∧
      lines.length = r.rdatas.length ∧
      (∀ (i : Nat) l rd, lines[i]? = some l → r.rdatas[i]? = some rd →
        RRset.from_str stdExt m l = .ok { r with rdatas := [rd] } ∧ RRset.from_str stdExt m (l ++ [10]) = .ok { r with rdatas := [rd] }) ∧
      (r.rdatas.length = 1 ∨ r.typ ≠ .OPT → RRset.from_strs stdExt m lines = .ok r) := c70_round_partial stdExt stdExt_laws m r h

/-- C70 for one record's data -/
theorem c70_std_rdata_partial (m : Build) (rd : RData) (h : rd.Printable) :
    ∃ t, rd.to_str stdExt = .ok t ∧ ∀ u, (∀ b ∈ u, Blank b) → RData.from_str stdExt m rd.kind (u ++ t) = .ok rd :=
  c70_rdata_partial stdExt stdExt_laws m rd h

/-- C78 without assumptions on the address parsers -/
theorem c78_std (m : Build) (ss : List (List UInt8)) (hu : ∀ s ∈ ss, PlainLine s) (r : RRset)
    (h : RRset.from_strs stdExt m ss = .ok r) (L : Nat) (hL : L ≤ 65535) : r.FitsIn L := c78_plain_fits stdExt stdExt_sized m ss hu r h L hL

/-- C81: two messages printed alike are the same in all that is printed -/
theorem c81_std_partial (m k : Response) (hm : m.Printable) (hk : k.Printable) (t : List UInt8)
    (h1 : m.to_string stdExt = .ok t) (h2 : k.to_string stdExt = .ok t) :
    m.header = k.header ∧ m.question = k.question ∧ (∀ s, Section.visibleRecords (m.section_ s) = Section.visibleRecords (k.section_ s)) ∧
    ∃ e f, m.get_edns = .ok e ∧ k.get_edns = .ok f ∧ ednsShown e = ednsShown f := c81_faithful_partial stdExt stdExt_laws m k hm hk t h1 h2

end R53
