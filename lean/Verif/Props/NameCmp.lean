import Verif.Proofs.NameRel
import Verif.Proofs.Signed
/-!
# C07–C12: equality, hashing, ordering and relations of names

Names are given by their labels: `Name.ofLabels a` is the value of the Rust type `Name` for the valid
label list `a` (`c01_*` and `c19_*` show that the values decoded or computed are of this form).
-/
namespace R53
namespace Name

/-- the labels of `www.Example.` and `WWW.example.`, used in the examples -/
def wwwUp : List Label := [[119, 119, 119], [69, 120, 97, 109, 112, 108, 101]]
def wwwLo : List Label := [[87, 87, 87], [101, 120, 97, 109, 112, 108, 101]]

/-! ## C07 -/

/-- `==` never panics and is label equality up to ASCII case -/
theorem c07_eq {a b : List Label} (ha : ValidName a) (hb : ValidName b) :
    (∃ r, eq (ofLabels a) (ofLabels b) = .ok r) ∧
    (eq (ofLabels a) (ofLabels b) = .ok true ↔ a.length = b.length ∧
      ∀ (i : Nat) (x y : Label), a[i]? = some x → b[i]? = some y → lowerLabel x = lowerLabel y) := by
  rw [eq_ofLabels ha hb]
  refine ⟨⟨_, rfl⟩, ?_⟩
  simp only [Res.ok.injEq, decide_eq_true_eq]
  constructor
  · intro h
    refine ⟨Name.SameName.length h, fun i x y hx hy => ?_⟩
    have := congrArg (·[i]?) h
    simp only [lowerName, List.getElem?_map] at this
    rw [hx, hy] at this
    simpa using this
  · rintro ⟨hl, h⟩
    unfold SameName lowerName
    apply List.ext_getElem?
    intro i
    simp only [List.getElem?_map]
    cases hx : a[i]? with
    | none =>
      have : b[i]? = none := by rw [List.getElem?_eq_none_iff] at *; omega
      rw [this]
    | some x =>
      have hi := (List.getElem?_eq_some_iff.mp hx).1
      have hy : b[i]? = some b[i] := List.getElem?_eq_getElem (by omega)
      rw [hy]
      simp [h i x b[i] hx hy]

theorem c07_refl {a : List Label} (ha : ValidName a) : eq (ofLabels a) (ofLabels a) = .ok true := by
  rw [eq_ofLabels ha ha]; simp [SameName]

theorem c07_symm {a b : List Label} (ha : ValidName a) (hb : ValidName b) :
    eq (ofLabels a) (ofLabels b) = eq (ofLabels b) (ofLabels a) := by
  rw [eq_ofLabels ha hb, eq_ofLabels hb ha]; congr 1; apply decide_eq_decide.mpr
  exact ⟨Eq.symm, Eq.symm⟩

theorem c07_trans {a b c : List Label} (ha : ValidName a) (hb : ValidName b) (hc : ValidName c)
    (h1 : eq (ofLabels a) (ofLabels b) = .ok true) (h2 : eq (ofLabels b) (ofLabels c) = .ok true) :
    eq (ofLabels a) (ofLabels c) = .ok true := by
  rw [eq_ofLabels ha hb] at h1
  rw [eq_ofLabels hb hc] at h2
  rw [eq_ofLabels ha hc]
  simp only [Res.ok.injEq, decide_eq_true_eq] at *
  exact Eq.trans h1 h2

example : ValidName wwwUp ∧ ValidName wwwLo ∧ wwwUp ≠ wwwLo ∧
    eq (ofLabels wwwUp) (ofLabels wwwLo) = .ok true := by decide

/-! ## C08 -/

/-- equal names feed the hasher the same octets, and different names feed different octets -/
theorem c08_hash {a b : List Label} (ha : ValidName a) (hb : ValidName b) :
    hashFeed (ofLabels a) = hashFeed (ofLabels b) ↔ eq (ofLabels a) (ofLabels b) = .ok true := by
  rw [eq_ofLabels ha hb, hashFeed_ofLabels ha, hashFeed_ofLabels hb]
  simp only [Res.ok.injEq, decide_eq_true_eq]
  constructor
  · intro h; exact nameWire_inj (lowerName_valid ha).1 (lowerName_valid hb).1 h
  · intro h; rw [show lowerName a = lowerName b from h]

example : hashFeed (ofLabels wwwUp) = hashFeed (ofLabels wwwLo) ∧ (ofLabels wwwUp).raw ≠ (ofLabels wwwLo).raw := by
  decide

/-! ## C09 -/

/-- for names of ASCII octets, in both builds: `cmp` does not panic and is the canonical order -/
theorem c09_cmp_canonical_partial (m : Build) {a b : List Label} (ha : ValidName a) (hb : ValidName b)
    (haa : Ascii a) (hab : Ascii b) : cmp m (ofLabels a) (ofLabels b) = .ok (canonicalCmp a b) :=
  cmp_ascii m ha hb haa hab

/-- the canonical order is a total order on names up to case: converse, equality, transitivity -/
theorem c09_total_order_partial (m : Build) {a b c : List Label} (ha : ValidName a) (hb : ValidName b) (hc : ValidName c)
    (haa : Ascii a) (hab : Ascii b) (hac : Ascii c) :
    (cmp m (ofLabels a) (ofLabels b) = .ok .lt ↔ cmp m (ofLabels b) (ofLabels a) = .ok .gt) ∧
    (cmp m (ofLabels a) (ofLabels b) = .ok .eq ↔ eq (ofLabels a) (ofLabels b) = .ok true) ∧
    (cmp m (ofLabels a) (ofLabels b) = .ok .lt → cmp m (ofLabels b) (ofLabels c) = .ok .lt →
      cmp m (ofLabels a) (ofLabels c) = .ok .lt) := by
  rw [cmp_ascii m ha hb haa hab, cmp_ascii m hb ha hab haa, cmp_ascii m hb hc hab hac,
    cmp_ascii m ha hc haa hac, eq_ofLabels ha hb]
  simp only [Res.ok.injEq, decide_eq_true_eq]
  refine ⟨?_, canonicalCmp_eq_iff a b, ?_⟩
  · have := cmpMSF_swap a.reverse b.reverse
    change canonicalCmp b a = _ at this
    rw [this]
    change _ ↔ (canonicalCmp a b).swap = _
    cases canonicalCmp a b <;> simp
  · exact cmpMSF_lt_trans _ _ _

example : ValidName wwwUp ∧ Ascii wwwUp ∧ ValidName [[97]] ∧ Ascii [[97]] ∧
    cmp .debug (ofLabels [[97]]) (ofLabels wwwUp) = .ok .lt := by
  refine ⟨by decide, by unfold Ascii; decide, by decide, by unfold Ascii; decide, by decide⟩

/-- VIOLATION (release build): two different names each compare below the other -/
theorem c09_not_antisymmetric : ValidName [[0]] ∧ ValidName [[128]] ∧
    cmp .release (ofLabels [[0]]) (ofLabels [[128]]) = .ok .lt ∧
    cmp .release (ofLabels [[128]]) (ofLabels [[0]]) = .ok .lt := by decide

/-- VIOLATION (release build): the order is not transitive -/
theorem c09_not_transitive : cmp .release (ofLabels [[0]]) (ofLabels [[123]]) = .ok .lt ∧
    cmp .release (ofLabels [[123]]) (ofLabels [[240]]) = .ok .lt ∧
    cmp .release (ofLabels [[240]]) (ofLabels [[0]]) = .ok .lt := by decide

/-- VIOLATION: not the canonical order (octets are compared as signed numbers) -/
theorem c09_not_canonical : canonicalCmp [[0x10]] [[0xC0]] = .lt ∧
    cmp .release (ofLabels [[0x10]]) (ofLabels [[0xC0]]) = .ok .gt ∧
    cmp .debug (ofLabels [[0x10]]) (ofLabels [[0xC0]]) = .ok .gt := by decide

/-- VIOLATION (debug build): `cmp` panics on two valid names -/
theorem c09_panics : ValidName [[100]] ∧ ValidName [[128]] ∧
    cmp .debug (ofLabels [[100]]) (ofLabels [[128]]) = .panic := by decide

/-- what the code computes, for all names and both builds: the order of names in which octets are compared by the sign of their
difference as signed numbers of eight bits; a difference that does not fit is a panic with overflow checks and has the wrong sign without -/
theorem c09_exact (m : Build) {a b : List Label} (ha : ValidName a) (hb : ValidName b) :
    cmp m (ofLabels a) (ofLabels b) = match nameOrder (diffOrder (decide (m = .debug))) a b with
      | none => .panic
      | some o => .ok o :=
  cmp_signed m ha hb

/-- with overflow checks the answers that are given are consistent: all are those of one total order, so two answers about the same names
are the converse of each other, and an answer never contradicts two others -/
theorem c09_checked_partial {a b c : List Label} (ha : ValidName a) (hb : ValidName b) (hc : ValidName c) :
    (∀ o, cmp .debug (ofLabels a) (ofLabels b) = .ok o → nameOrder (fun x y => some (compare (signed x) (signed y))) a b = some o) ∧
    (∀ o p, cmp .debug (ofLabels a) (ofLabels b) = .ok o → cmp .debug (ofLabels b) (ofLabels a) = .ok p → p = o.swap) ∧
    (∀ o, cmp .debug (ofLabels a) (ofLabels b) = .ok .lt → cmp .debug (ofLabels b) (ofLabels c) = .ok .lt → cmp .debug (ofLabels a) (ofLabels c) = .ok o →
      o = .lt) := by
  have key : ∀ {a b : List Label}, ValidName a → ValidName b → ∀ o, cmp .debug (ofLabels a) (ofLabels b) = .ok o → nameOrder signedOrder a b = some o := by
    intro a b ha hb o h
    rw [cmp_signed .debug ha hb] at h
    cases e : nameOrder (diffOrder true) a b with
    | none => rw [show checks .debug = true from rfl, e] at h; simp at h
    | some p => rw [show checks .debug = true from rfl, e] at h; cases h; exact list_checked e
  refine ⟨key ha hb, fun o p h1 h2 => ?_, fun o h1 h2 h3 => ?_⟩
  · have h1 := key ha hb o h1
    have h2 := key hb ha p h2
    unfold nameOrder at h1 h2
    rw [list_swap, h1] at h2
    exact (Option.some.inj h2).symm
  · have h1 := key ha hb _ h1
    have h2 := key hb hc _ h2
    have h3 := key ha hc _ h3
    have := list_le_trans h1 h2 (by simp) (by simp)
    unfold nameOrder at h3
    rw [h3] at this
    exact Option.some.inj this

/-- names with octets above 127 that a debug build compares, and what a release build says of two it does not -/
example : ValidName [[200], [97]] ∧ ValidName [[250], [97]] ∧ ValidName [[97], [97]] ∧
    cmp .debug (ofLabels [[200], [97]]) (ofLabels [[250], [97]]) = .ok .lt ∧ cmp .debug (ofLabels [[250], [97]]) (ofLabels [[97], [97]]) = .ok .lt ∧
    cmp .debug (ofLabels [[200], [97]]) (ofLabels [[97], [97]]) = .panic ∧ cmp .release (ofLabels [[200], [97]]) (ofLabels [[97], [97]]) = .ok .gt := by
  decide

/-! ## C10 -/

theorem cmp_eq_iff {m : Build} {a b : Name} {r : NameComparisonResult} (h : get_relation m a b = .ok r) :
    cmp m a b = .ok .eq ↔ r.order = 0 := by
  unfold cmp
  rw [h]
  simp only [Res.bind_ok, Res.pure_eq, Res.ok.injEq]
  by_cases h1 : r.order < 0
  · rw [if_pos h1]; simp; omega
  · rw [if_neg h1]
    by_cases h2 : r.order = 0
    · rw [if_pos h2]; simp [h2]
    · rw [if_neg h2]; simp [h2]

/-- without overflow checks, for all names: `cmp` answers, and `Equal` exactly for equal names -/
theorem c10_cmp_eq_release {a b : List Label} (ha : ValidName a) (hb : ValidName b) :
    (∃ o, cmp .release (ofLabels a) (ofLabels b) = .ok o) ∧
    (cmp .release (ofLabels a) (ofLabels b) = .ok .eq ↔ eq (ofLabels a) (ofLabels b) = .ok true) := by
  obtain ⟨r, hr, _, _, h⟩ := get_relation_release ha hb
  refine ⟨⟨_, by unfold cmp; rw [hr]; rfl⟩, ?_⟩
  rw [cmp_eq_iff hr, h, eq_ofLabels ha hb]
  simp

/-- with overflow checks: whenever `cmp` returns, it agrees with `==` -/
theorem c10_cmp_eq_debug {a b : List Label} (ha : ValidName a) (hb : ValidName b) (o : Ordering)
    (h : cmp .debug (ofLabels a) (ofLabels b) = .ok o) :
    o = .eq ↔ eq (ofLabels a) (ofLabels b) = .ok true := by
  rcases get_relation_debug ha hb with h' | h'
  · unfold cmp at h; rw [h'] at h; simp at h
  · have : cmp .debug (ofLabels a) (ofLabels b) = cmp .release (ofLabels a) (ofLabels b) := by
      unfold cmp; rw [h']
    rw [← (c10_cmp_eq_release ha hb).2, ← this, h]; simp

example : cmp .release (ofLabels [[128], [97]]) (ofLabels [[128], [65]]) = .ok .eq ∧
    cmp .debug (ofLabels [[200]]) (ofLabels [[130]]) = .ok .gt := by decide

/-! ## C11 -/

/-- `relationSpec` is the classification of the property: -/
theorem relationSpec_cases (a b : List Label) :
    (relationSpec a b = .Equal ↔ SameName a b) ∧
    (relationSpec a b = .SubDomain ↔ IsSubdomain a b ∧ ¬ SameName a b) ∧
    (relationSpec a b = .SuperDomain ↔ IsSubdomain b a ∧ ¬ SameName a b) ∧
    (relationSpec a b = .CommonAncestor ↔ ¬ IsSubdomain a b ∧ ¬ IsSubdomain b a) := by
  have h1 : SameName a b → IsSubdomain a b := same_sub
  have h2 : IsSubdomain a b → IsSubdomain b a → SameName a b := sub_antisymm
  unfold relationSpec
  by_cases hs : SameName a b
  · rw [if_pos hs]; have := h1 hs; have := same_sub (a := b) (b := a) (Eq.symm hs); simp [*]
  · rw [if_neg hs]
    by_cases hab : IsSubdomain a b
    · rw [if_pos hab]; simp [*]; exact fun h => hs (h2 hab h)
    · rw [if_neg hab]
      by_cases hba : IsSubdomain b a
      · rw [if_pos hba]; simp [*]
      · rw [if_neg hba]; simp [*]

/-- without overflow checks, for all names -/
theorem c11_get_relation {a b : List Label} (ha : ValidName a) (hb : ValidName b) :
    ∃ r, get_relation .release (ofLabels a) (ofLabels b) = .ok r ∧
      (r.relation = .Equal ↔ SameName a b) ∧
      (r.relation = .SubDomain ↔ IsSubdomain a b ∧ ¬ SameName a b) ∧
      (r.relation = .SuperDomain ↔ IsSubdomain b a ∧ ¬ SameName a b) ∧
      (r.relation = .CommonAncestor ↔ ¬ IsSubdomain a b ∧ ¬ IsSubdomain b a) ∧
      r.common_label_count = commonLabels a b + 1 := by
  obtain ⟨r, hr, h1, h2, _⟩ := get_relation_release ha hb
  have := relationSpec_cases a b
  exact ⟨r, hr, by rw [h2]; exact this.1, by rw [h2]; exact this.2.1, by rw [h2]; exact this.2.2.1,
    by rw [h2]; exact this.2.2.2, h1⟩

/-- with overflow checks it panics or gives the same answer; on ASCII names it does not panic -/
theorem c11_get_relation_debug {a b : List Label} (ha : ValidName a) (hb : ValidName b) :
    (get_relation .debug (ofLabels a) (ofLabels b) = .panic ∨
      get_relation .debug (ofLabels a) (ofLabels b) = get_relation .release (ofLabels a) (ofLabels b)) ∧
    (Ascii a → Ascii b →
      get_relation .debug (ofLabels a) (ofLabels b) = get_relation .release (ofLabels a) (ofLabels b)) :=
  ⟨get_relation_debug ha hb, fun h1 h2 => get_relation_ascii .debug ha hb h1 h2⟩

example : get_relation .release (ofLabels wwwUp) (ofLabels (wwwLo.drop 1)) = .ok ⟨1, 2, .SubDomain⟩ := by decide
example : get_relation .release (ofLabels wwwUp) (ofLabels ([97] :: wwwLo.drop 1)) = .ok ⟨22, 2, .CommonAncestor⟩ := by
  decide

/-! ## C12 -/

theorem raw_lower {a : List Label} (ha : ValidName a) : (ofLabels a).raw.map lowerByte = nameWire (lowerName a) := by
  rw [← hashFeed_ofLabels ha, hashFeed, map_lower_case]

theorem isSub_count {a b : List Label} (h : IsSubdomain a b) : b.length ≤ a.length := by
  have := h.length_le
  simpa [lowerName] using this

theorem isSub_wire {a b : List Label} (h : IsSubdomain a b) : nameWire (lowerName b) <:+ nameWire (lowerName a) := by
  obtain ⟨t, ht⟩ := h
  refine ⟨wire t, ?_⟩
  rw [← ht]; simp [nameWire]

/-- completeness: every ancestor-or-self is recognised, and the answer is never a panic -/
theorem c12_complete_partial {a b : List Label} (ha : ValidName a) (hb : ValidName b) :
    (∃ r, is_subdomain (ofLabels a) (ofLabels b) = .ok r) ∧
    (IsSubdomain a b → is_subdomain (ofLabels a) (ofLabels b) = .ok true) := by
  have hraw : (ofLabels b).raw ≠ [] := by simp
  constructor
  · by_cases h : (ofLabels b).label_count ≤ (ofLabels a).label_count ∧ (ofLabels b).len ≤ (ofLabels a).len
    · exact ⟨_, is_subdomain_raw _ _ hraw h.1 h.2⟩
    · refine ⟨false, ?_⟩
      unfold is_subdomain
      rw [if_pos (by omega)]
  · intro h
    have hw := isSub_wire h
    have hl : (ofLabels b).len ≤ (ofLabels a).len := by
      have := hw.length_le
      simp only [nameWire, List.length_append, lower_wire_length] at this
      rw [ofLabels_len, ofLabels_len]
      simpa using this
    rw [is_subdomain_raw _ _ hraw (by rw [ofLabels_count, ofLabels_count]; have := isSub_count h; omega) hl]
    simp only [Res.ok.injEq, decide_eq_true_eq]
    rw [raw_lower ha, List.map_drop, raw_lower hb]
    exact (List.drop_suffix _ _).trans hw

/-- soundness where the candidate starts at a label of `a` and the first labels are equally long -/
theorem c12_sound_partial {pre t b : List Label} {x y : Label} (ha : ValidName (pre ++ x :: t)) (hb : ValidName (y :: b))
    (hlen : (nameWire (x :: t)).length = (nameWire (y :: b)).length) (hfirst : x.length = y.length)
    (h : is_subdomain (ofLabels (pre ++ x :: t)) (ofLabels (y :: b)) = .ok true) :
    IsSubdomain (pre ++ x :: t) (y :: b) := by
  have hx : ValidName (x :: t) := ha.sublist (List.sublist_append_right _ _)
  have hraw : (ofLabels (y :: b)).raw ≠ [] := by simp
  by_cases hc : (ofLabels (y :: b)).label_count ≤ (ofLabels (pre ++ x :: t)).label_count ∧
      (ofLabels (y :: b)).len ≤ (ofLabels (pre ++ x :: t)).len
  · rw [is_subdomain_raw _ _ hraw hc.1 hc.2] at h
    simp only [Res.ok.injEq, decide_eq_true_eq] at h
    rw [raw_lower ha, List.map_drop, raw_lower hb] at h
    have e1 : nameWire (lowerName (pre ++ x :: t)) = wire (lowerName pre) ++ nameWire (lowerName (x :: t)) := by
      simp [nameWire, lowerName]
    have e2 : ∀ (z : Label) (u : List Label), nameWire (lowerName (z :: u)) =
        UInt8.ofNat z.length :: (lowerLabel z ++ nameWire (lowerName u)) := by
      intro z u
      simp [nameWire, lowerName, wire, labelWire, lowerLabel]
    have h2 : (nameWire (lowerName (x :: t))).drop 1 <:+ nameWire (lowerName (pre ++ x :: t)) := by
      rw [e1]; exact (List.drop_suffix _ _).trans (List.suffix_append _ _)
    have hll : ((nameWire (lowerName (y :: b))).drop 1).length = ((nameWire (lowerName (x :: t))).drop 1).length := by
      have g : ∀ z : List Label, (nameWire (lowerName z)).length = (nameWire z).length := by
        intro z; simp [nameWire, lower_wire_length]
      rw [List.length_drop, List.length_drop, g, g, hlen]
    have h3 := List.suffix_of_suffix_length_le h h2 (Nat.le_of_eq hll)
    have h4 := h3.eq_of_length hll
    have h5 : nameWire (lowerName (y :: b)) = nameWire (lowerName (x :: t)) := by
      rw [e2, e2] at h4 ⊢
      simp only [List.drop_succ_cons, List.drop_zero] at h4
      rw [hfirst, h4]
    have h6 := nameWire_inj (lowerName_valid hb).1 (lowerName_valid hx).1 h5
    unfold IsSubdomain
    rw [h6]
    rw [lowerName_append]
    exact List.suffix_append _ _
  · unfold is_subdomain at h
    rw [if_pos (by omega)] at h
    simp at h

example : is_subdomain (ofLabels wwwUp) (ofLabels (wwwLo.drop 1)) = .ok true ∧
    is_subdomain (ofLabels wwwUp) (ofLabels ([101, 120, 97, 109, 112, 108, 102] :: [])) = .ok false := by decide

theorem nw (z : List Label) : (nameWire z).length = (wire z).length + 1 := by simp [nameWire]

theorem subdomain_cons {a b : List Label} {y : Label} (ha : ValidName a) (hb : ValidName (y :: b)) :
    is_subdomain (ofLabels a) (ofLabels (y :: b)) = .ok (decide (b.length + 1 ≤ a.length ∧ (nameWire (y :: b)).length ≤ (nameWire a).length ∧
      lowerLabel y ++ nameWire (lowerName b) <:+ nameWire (lowerName a))) := by
  have hraw : (ofLabels (y :: b)).raw ≠ [] := by simp
  have e : ((ofLabels (y :: b)).raw.drop 1).map lowerByte = lowerLabel y ++ nameWire (lowerName b) := by
    rw [List.map_drop, raw_lower hb]
    simp [nameWire, lowerName, wire, labelWire, lowerLabel]
  by_cases h : (ofLabels (y :: b)).label_count ≤ (ofLabels a).label_count ∧ (ofLabels (y :: b)).len ≤ (ofLabels a).len
  · rw [is_subdomain_raw _ _ hraw h.1 h.2, e, raw_lower ha]
    rw [ofLabels_count, ofLabels_count, ofLabels_len, ofLabels_len] at h
    congr 1
    apply decide_eq_decide.2
    constructor
    · intro h'; exact ⟨by have := h.1; simp only [List.length_cons] at this; omega, by rw [nw, nw]; exact h.2, h'⟩
    · exact fun h' => h'.2.2
  · unfold is_subdomain
    rw [if_pos (by omega)]
    rw [ofLabels_count, ofLabels_count, ofLabels_len, ofLabels_len] at h
    congr 1; symm; apply decide_eq_false
    rintro ⟨h1, h2, -⟩
    exact h ⟨by simp only [List.length_cons]; omega, by rw [nw, nw] at h2; exact h2⟩

/-- what the code decides, for every two names: the root is above every name; any other candidate is taken to be above a name when, case
aside, its octets without the first length octet end the octets of the name, and it has no more labels and no more octets -/
theorem c12_exact {a : List Label} (ha : ValidName a) :
    is_subdomain (ofLabels a) (ofLabels []) = .ok true ∧
    ∀ y b, ValidName (y :: b) → is_subdomain (ofLabels a) (ofLabels (y :: b)) = .ok (decide (b.length + 1 ≤ a.length ∧
      (nameWire (y :: b)).length ≤ (nameWire a).length ∧ lowerLabel y ++ nameWire (lowerName b) <:+ nameWire (lowerName a))) :=
  ⟨(c12_complete_partial ha (by decide)).2 (List.nil_suffix), fun _ _ hb => subdomain_cons ha hb⟩

theorem high_lower : ∀ c : UInt8, 64 ≤ c → 64 ≤ lowerByte c := by apply forall_u8'; decide +kernel

theorem high_cut : ∀ {p q r s : List UInt8} {x y : UInt8}, (∀ c ∈ p, 64 ≤ c) → (∀ c ∈ q, 64 ≤ c) → x < 64 → y < 64 → p ++ x :: r = q ++ y :: s →
    p = q ∧ x :: r = y :: s
  | [], [], _, _, _, _, _, _, _, _, h => ⟨rfl, h⟩
  | [], c :: q, _, _, x, _, _, hq, hx, _, h => by
    simp only [List.nil_append, List.cons_append, List.cons.injEq] at h
    have := hq c (List.mem_cons_self ..); rw [← h.1] at this; exact absurd hx (UInt8.not_lt.2 this)
  | c :: p, [], _, _, _, y, hp, _, _, hy, h => by
    simp only [List.nil_append, List.cons_append, List.cons.injEq] at h
    have := hp c (List.mem_cons_self ..); rw [h.1] at this; exact absurd hy (UInt8.not_lt.2 this)
  | c :: p, d :: q, _, _, _, _, hp, hq, hx, hy, h => by
    simp only [List.cons_append, List.cons.injEq] at h
    obtain ⟨h1, h2⟩ := high_cut (fun c h => hp c (List.mem_cons_of_mem _ h)) (fun c h => hq c (List.mem_cons_of_mem _ h)) hx hy h.2
    exact ⟨by rw [h.1, h1], h2⟩

theorem low_first (ls : List Label) (h : ∀ l ∈ ls, ValidLabel l) : ∃ x r, nameWire ls = x :: r ∧ x < 64 := by
  cases ls with
  | nil => exact ⟨0, [], rfl, by decide⟩
  | cons l ls =>
    refine ⟨UInt8.ofNat l.length, l ++ nameWire ls, by simp [nameWire, wire, labelWire], ?_⟩
    have := (h l (List.mem_cons_self ..)).2
    rw [UInt8.lt_iff_toNat_lt, UInt8.toNat_ofNat']
    show l.length % 256 < 64
    omega

theorem letters_suffix {y : Label} {b : List Label} (hy : y ≠ []) (hy' : ∀ c ∈ y, 64 ≤ c) (hb : ∀ l ∈ b, ValidLabel l) : ∀ a : List Label,
    (∀ l ∈ a, ValidLabel l) → (∀ l ∈ a, ∀ c ∈ l, 64 ≤ c) → y ++ nameWire b <:+ nameWire a → ∃ pre x, a = pre ++ x :: b ∧ y <:+ x
  | [], _, _, h => by
    have h1 := h.length_le
    cases y with
    | nil => exact absurd rfl hy
    | cons c y => simp [nameWire] at h1
  | z :: u, hv, hh, h => by
    have e : nameWire (z :: u) = (UInt8.ofNat z.length :: z) ++ nameWire u := by simp [nameWire, wire, labelWire]
    obtain ⟨t, ht⟩ := h
    rw [e] at ht
    rcases List.append_eq_append_iff.1 ht with ⟨w, h1, h2⟩ | ⟨w, h1, h2⟩
    · -- `t ++ w = len :: z`, `y ++ … = w ++ …`
      obtain ⟨bx, br, eb, hbx⟩ := low_first b hb
      obtain ⟨ux, ur, eu, hux⟩ := low_first u fun l hl => hv l (List.mem_cons_of_mem _ hl)
      cases t with
      | nil =>
        simp only [List.nil_append] at h1
        exfalso
        cases y with
        | nil => exact hy rfl
        | cons c y =>
          rw [← h1, List.cons_append, List.cons_append, List.cons.injEq] at h2
          have g := hy' c (List.mem_cons_self ..)
          have := (hv z (List.mem_cons_self ..)).2
          rw [h2.1, UInt8.le_iff_toNat_le, UInt8.toNat_ofNat'] at g
          have g : 64 ≤ z.length % 256 := g
          omega
      | cons c t =>
        simp only [List.cons_append, List.cons.injEq] at h1
        have hw : ∀ c ∈ w, 64 ≤ c := fun c hc => hh z (List.mem_cons_self ..) c (by rw [h1.2]; simp [hc])
        rw [eb, eu] at h2
        obtain ⟨h3, h4⟩ := high_cut hy' hw hbx hux h2
        rw [← eb, ← eu] at h4
        have := nameWire_inj hb (fun l hl => hv l (List.mem_cons_of_mem _ hl)) h4
        subst this
        exact ⟨[], z, rfl, t, by rw [h3]; exact h1.2.symm⟩
    · obtain ⟨pre, x, h3, h4⟩ := letters_suffix hy hy' hb u (fun l hl => hv l (List.mem_cons_of_mem _ hl)) (fun l hl => hh l (List.mem_cons_of_mem _ hl)) ⟨w, h2.symm⟩
      exact ⟨z :: pre, x, by rw [h3]; rfl, h4⟩

/-- what this means for names of letters (no octet below 64, so none can be taken for a length): besides the names above, the code takes
every name for one whose first label is the end of a label, as `ab.` for `aab.` -/
theorem c12_letters_exact {a b : List Label} {y : Label} (ha : ValidName a) (hb : ValidName (y :: b)) (la : ∀ l ∈ a, ∀ c ∈ l, 64 ≤ c)
    (lb : ∀ c ∈ y, 64 ≤ c) : is_subdomain (ofLabels a) (ofLabels (y :: b)) = .ok true ↔
      ∃ pre x t, a = pre ++ x :: t ∧ SameName t b ∧ lowerLabel y <:+ lowerLabel x := by
  rw [subdomain_cons ha hb]
  simp only [Res.ok.injEq, decide_eq_true_eq]
  have hy := hb.1 y (List.mem_cons_self ..)
  constructor
  · rintro ⟨-, -, h⟩
    have la' : ∀ l ∈ lowerName a, ∀ c ∈ l, 64 ≤ c := by
      intro l hl c hc
      simp only [lowerName, List.mem_map] at hl
      obtain ⟨k, hk, rfl⟩ := hl
      simp only [lowerLabel, List.mem_map] at hc
      obtain ⟨d, hd, rfl⟩ := hc
      exact high_lower d (la k hk d hd)
    have lb' : ∀ c ∈ lowerLabel y, 64 ≤ c := by
      intro c hc
      simp only [lowerLabel, List.mem_map] at hc
      obtain ⟨d, hd, rfl⟩ := hc
      exact high_lower d (lb d hd)
    have ne : lowerLabel y ≠ [] := by
      intro e
      have h0 := hy.1
      have := congrArg List.length e
      simp [lowerLabel] at this
      simp [this] at h0
    obtain ⟨pre, x, h1, h2⟩ := letters_suffix ne lb' (fun l hl => (lowerName_valid hb).1 l (by simp [lowerName] at hl ⊢; exact .inr hl)) (lowerName a) (lowerName_valid ha).1 la' h
    obtain ⟨p, q, rfl, h3, h4⟩ := List.map_eq_append_iff.1 h1
    obtain ⟨x', t, rfl, h5, h6⟩ := List.map_eq_cons_iff.1 h4
    exact ⟨p, x', t, rfl, h6, by rw [h5]; exact h2⟩
  · rintro ⟨pre, x, t, rfl, h1, h2⟩
    have h1 : lowerName t = lowerName b := h1
    have hl : t.length = b.length := by simpa [lowerName] using congrArg List.length h1
    have hw : (nameWire t).length = (nameWire b).length := by
      have g : ∀ z : List Label, (nameWire (lowerName z)).length = (nameWire z).length := by
        intro z; simp [nameWire, lower_wire_length]
      rw [← g t, ← g b, h1]
    have e : ∀ (z : Label) (u : List Label), nameWire (z :: u) = UInt8.ofNat z.length :: (z ++ nameWire u) := by
      intro z u; simp [nameWire, wire, labelWire]
    have hx := h2.length_le
    simp only [lowerLabel, List.length_map] at hx
    refine ⟨by simp only [List.length_append, List.length_cons]; omega, ?_, ?_⟩
    · have : nameWire (pre ++ x :: t) = wire pre ++ nameWire (x :: t) := by simp [nameWire, wire]
      rw [this, e, e]
      simp only [List.length_append, List.length_cons]
      omega
    · have : nameWire (lowerName (pre ++ x :: t)) = (wire (lowerName pre) ++ [UInt8.ofNat (lowerLabel x).length]) ++ (lowerLabel x ++ nameWire (lowerName t)) := by
        simp [nameWire, wire, lowerName, labelWire, lowerLabel]
      rw [this, h1]
      obtain ⟨s, hs⟩ := h2
      exact List.IsSuffix.trans (l₂ := lowerLabel x ++ nameWire (lowerName b)) ⟨s, by rw [← hs, List.append_assoc]⟩ (List.suffix_append _ _)

/-- both sides of `c12_letters_exact` occur: `x.aab.c.` and `ab.C.`, and `x.aab.c.` and `ac.c.` -/
example : ValidName [[120], [97, 97, 98], [99]] ∧ ValidName [[97, 98], [67]] ∧ (∀ l ∈ [[120], [97, 97, 98], [(99 : UInt8)]], ∀ c ∈ l, 64 ≤ c) ∧
    is_subdomain (ofLabels [[120], [97, 97, 98], [99]]) (ofLabels [[97, 98], [67]]) = .ok true ∧
    is_subdomain (ofLabels [[120], [97, 97, 98], [99]]) (ofLabels [[97, 99], [67]]) = .ok false := by decide

/-- VIOLATION: `aab.` is reported to be below `ab.` (the length octet of the first label of the
candidate ancestor is not compared) -/
theorem c12_unsound : ValidName [[97, 97, 98]] ∧ ValidName [[97, 98]] ∧ ¬ IsSubdomain [[97, 97, 98]] [[97, 98]] ∧
    is_subdomain (ofLabels [[97, 97, 98]]) (ofLabels [[97, 98]]) = .ok true := by decide

end Name
end R53
