import Verif.Proofs.Seek
import Verif.Props.Compress
/-!
# C72 for every history: the octets of the next name

The names a renderer remembers, read off the names written so far and the octets each of them took; then the next name is found,
spelled or refused as `seekLabels` (Spec/Seek.lean) says. No condition on hashes, full buckets or positions.
-/
namespace R53
open Name (ofLabels)

/-- what is remembered of a name that took `taken` octets from `pos` on: each of its labels that ends before the last octet, with the
labels behind it, while it stands where a pointer can reach and its bucket has a place -/
def remember (d : Dict) (pos taken : Nat) : List Label → Dict
  | [] => d
  | l :: ls => if l.length + 1 < taken then
      remember (if pos ≤ 0x3fff ∧ Memory.table d (l :: ls) then d ++ [(l :: ls, pos)] else d) (pos + (l.length + 1)) (taken - (l.length + 1)) ls
    else d

/-- all that is remembered, oldest first -/
def Hist.dictionary (h : Hist) : Dict := h.log.foldr (fun x d => remember d x.1 (x.2.2 - x.1) x.2.1.labelList) []

theorem remember_stop {l : Label} {taken : Nat} (h : ¬ l.length + 1 < taken) (d : Dict) (pos : Nat) (ls : List Label) : remember d pos taken (l :: ls) = d := by
  rw [remember, if_neg h]

theorem remember_go {l : Label} {taken : Nat} (h : l.length + 1 < taken) (d : Dict) (pos : Nat) (ls : List Label) : remember d pos taken (l :: ls) =
    remember (if pos ≤ 0x3fff ∧ Memory.table d (l :: ls) then d ++ [(l :: ls, pos)] else d) (pos + (l.length + 1)) (taken - (l.length + 1)) ls := by
  rw [remember, if_pos h]

theorem remember_regs {ls : List Label} (hne : ∀ l ∈ ls, l ≠ []) (lu e : Nat) (h : (e = 1 ∧ lu = ls.length) ∨ (e = 2 ∧ lu < ls.length)) (d : Dict) (pos : Nat) :
    remember d pos ((wire (ls.take lu)).length + e) ls = regs Memory.table d pos lu ls := by
  induction ls generalizing lu d pos with
  | nil => cases lu <;> simp [remember, regs]
  | cons l ls ih =>
    cases lu with
    | zero =>
      simp only [List.length_cons] at h
      have := List.length_pos_iff.mpr (hne l (by simp))
      rw [remember_stop (by simp only [List.take_zero, wire_nil, List.length_nil]; omega), regs]
    | succ lu =>
      simp only [List.length_cons] at h
      rw [List.take_succ_cons, remember_go (by rw [wire_length_cons]; rcases h with h | h <;> omega), regs,
        ← ih (fun x hx => hne x (by simp [hx])) lu (by omega), wire_length_cons]
      congr 1
      omega

theorem regs_all (d : Dict) (pos : Nat) (ls : List Label) : regs Memory.table d pos (ls.length + 1) ls = regs Memory.table d pos ls.length ls := by
  induction ls generalizing d pos with
  | nil => rfl
  | cons l ls ih => simp only [List.length_cons]; rw [regs, regs, ih]

theorem remember_emitted {g : Mem} {ls : List Label} (hv : ValidName ls) {c : Bool} {lu : Nat} {off : UInt16} (hsc : Render.ScanOK g ls c lu off) (d : Dict) (pos : Nat) :
    remember d pos (Render.emitted ls lu off).length ls = regs Memory.table d pos lu ls := by
  have hne : ∀ l ∈ ls, l ≠ [] := fun l hl he => by have := (hv.1 l hl).1; simp [he] at this
  rcases hsc with ⟨a1, a2⟩ | ⟨_, a1, a2, _⟩
  · rw [a2, regs_all, ← remember_regs hne ls.length 1 (Or.inl ⟨rfl, rfl⟩), List.take_length]
    simp only [Render.emitted, if_pos a1, nameWire, List.length_append, List.length_singleton]
  · rw [← remember_regs hne lu 2 (Or.inr ⟨rfl, a2⟩)]
    simp only [Render.emitted, if_neg a1, List.length_append, List.length_cons, List.length_nil]

/-- one name, compressed or not: what is remembered of it, and nothing after a failure -/
theorem write_name_has {ls : List Label} (hv : ValidName ls) (c : Bool) {r : Render} {g : Mem} {d : Dict} (h : RInv r g) (hd : DictHas r g d) :
    (∃ r' out, Render.write_name (ofLabels ls) c r = (.ok (), r') ∧ Wrote r r' g out ∧ DictHas r' (g.ext r.buffer.len out) (remember d r.buffer.len out.length ls)) ∨
    (∃ r', Render.write_name (ofLabels ls) c r = (.err, r') ∧ r'.table = r.table ∧ r'.item_counts = r.item_counts) := by
  unfold Render.write_name
  obtain ⟨hs, h1, h2, h3⟩ := Render.scanLoop_spec hv c g (ofLabels ls).label_count 0 0 r h (by rw [Name.ofLabels_count])
    (by rw [Name.ofLabels_count]; omega) rfl
  have hmem := fun lu' off r' he => Render.scanLoop_mem hv c g (ofLabels ls).label_count 0 0 r h (by rw [Name.ofLabels_count])
    (by rw [Name.ofLabels_count]; omega) rfl (fun i hi => by omega) (lu' := lu') (off := off) (r' := r') he
  generalize hres : Render.scanLoop (ofLabels ls) c (ofLabels ls).label_count 0 0 r = res at h2 h3 hmem
  obtain ⟨x, r1⟩ := res
  simp only at h2 h3
  subst h2
  have hinv1 : RInv { r with label_hashes := hs } g := Render.RInv.setHashes h h1
  rcases h3 with ⟨h3, _⟩ | ⟨lu, off, h3, hsc⟩
  · subst h3
    right
    rw [St.bind_err hres]
    exact ⟨_, rfl, rfl, rfl⟩
  · subst h3
    have k2 := (hmem lu off _ rfl).1
    rw [St.bind_ok hres]
    simp only
    rw [St.get_bind]
    have hlu : lu < ls.length ∨ lu = ls.length + 1 := by rcases hsc with ⟨_, h⟩ | ⟨_, _, h, _⟩ <;> omega
    have hem := Render.emitName_exact c hsc { r with label_hashes := hs } h.buf
    simp only at hem
    by_cases hfit : r.buffer.len + (Render.emitted ls lu off).length ≤ r.buffer.capacity
    · left
      rw [St.bind_ok (hem.1 hfit)]
      obtain ⟨hi2, hle, hcont⟩ := Render.RInv.append hinv1 hfit
      simp only at hi2 hle
      have hdec := fun j hj => Render.emitted_decodes hv hsc hinv1 j hj
      simp only at hdec
      have hik : ∀ j, 0 ≤ j → j < 0 + lu → ∃ e, DecodesM (g.ext r.buffer.len (Render.emitted ls lu off)) r.buffer.len (r.buffer.len + (wire (ls.take j)).length) (ls.drop j) e ∧
          (j < ls.length → g.ext r.buffer.len (Render.emitted ls lu off) (r.buffer.len + (wire (ls.take j)).length) = some (UInt8.ofNat (ls[j]?.getD []).length)) ∧
          (j = ls.length → g.ext r.buffer.len (Render.emitted ls lu off) (r.buffer.len + (wire (ls.take j)).length) = some 0) := fun j _ hj => by
        have := hdec j (Or.inl (by omega))
        exact ⟨_, this.1, this.2.1 (by omega), this.2.2 (by omega)⟩
      obtain ⟨r2, hr2, hr2i, hr2b⟩ := Render.registerLoop_spec (e := 0) hv (start := r.buffer.len) lu 0 _ hi2 (by omega) hik
      have hreg := registerLoop_has hv (start := r.buffer.len) lu 0 _ hi2 (by simpa using k2) (by omega) hik
        (d := d) ((hd.le hle).same rfl rfl) hr2
      simp only [List.take_zero, wire_nil, List.length_nil, Nat.add_zero, Nat.sub_zero, List.drop_zero] at hr2 hreg
      refine ⟨r2, _, ?_, ⟨hfit, hr2b, hr2i⟩, ?_⟩
      · rw [← hr2]
        congr 1
        rw [Name.len, Name.ofLabels_raw, nameWire_eq]
      · rw [remember_emitted hv hsc]; exact hreg
    · right
      have he := hem.2 hfit
      exact ⟨_, St.bind_err he, rfl, rfl⟩

theorem seekLabels_pos {ls : List Label} {d : Dict} {pos : Nat} {x : List UInt8 × Dict} (h : seekLabels d pos ls = some x) : 0 < x.1.length := by
  cases ls with
  | nil => simp only [seekLabels, Option.some.injEq] at h; subst h; simp
  | cons l ls =>
    rw [seekLabels] at h
    cases hs : d.seek (l :: ls) with
    | none => rw [hs] at h; simp at h
    | some o =>
      rw [hs] at h
      cases o with
      | some p => simp only [Option.some.injEq] at h; subst h; simp [pointerTo]
      | none =>
        simp only [Option.map_eq_some_iff] at h
        obtain ⟨y, _, rfl⟩ := h
        simp [labelWire]

/-- `seekLabels` remembers what can be read off the octets it makes -/
theorem seekLabels_remember {ls : List Label} (hv : ValidName ls) {d : Dict} {pos : Nat} {x : List UInt8 × Dict} (h : seekLabels d pos ls = some x) :
    x.2 = remember d pos x.1.length ls := by
  have hne : ∀ l ∈ ls, l ≠ [] := fun l hl he => by have := (hv.1 l hl).1; simp [he] at this
  clear hv
  induction ls generalizing d pos x with
  | nil => simp only [seekLabels, Option.some.injEq] at h; subst h; rfl
  | cons l ls ih =>
    have hl := List.length_pos_iff.mpr (hne l (by simp))
    rw [seekLabels] at h
    cases hs : d.seek (l :: ls) with
    | none => rw [hs] at h; simp at h
    | some o =>
      rw [hs] at h
      cases o with
      | some p =>
        simp only [Option.some.injEq] at h
        subst h
        rw [remember_stop (by simp only [pointerTo, List.length_cons, List.length_nil]; omega)]
      | none =>
        simp only [Option.map_eq_some_iff] at h
        obtain ⟨y, hy, rfl⟩ := h
        have hy1 := seekLabels_pos hy
        have hyl : (labelWire l ++ y.1).length = l.length + 1 + y.1.length := by simp [labelWire]; omega
        rw [hyl, remember_go (by omega), ih hy (fun x hx => hne x (by simp [hx])),
          show l.length + 1 + y.1.length - (l.length + 1) = y.1.length by omega]

/-- the table holds the dictionary of the history -/
structure DInv (h : Hist) (g : Mem) : Prop where
  inv : RInv h.r g
  free : ∀ i, h.hole i = true → g i = none
  inside : ∀ i, h.hole i = true → i < h.r.buffer.len
  has : DictHas h.r g h.dictionary

theorem DInv.other {h : Hist} {g g' : Mem} (hi : DInv h g) {r' : Render} {hole' : Nat → Bool} (h1 : RInv r' g') (hg : g.le g')
    (ht : r'.table = h.r.table) (hc : r'.item_counts = h.r.item_counts)
    (hf : ∀ i, hole' i = true → g' i = none) (hin : ∀ i, hole' i = true → i < r'.buffer.len) : DInv ⟨r', hole', h.log⟩ g' :=
  ⟨h1, hf, hin, (hi.has.le hg).same ht hc⟩

theorem DInv.step {h : Hist} {g : Mem} (hi : DInv h g) {op : ROp} (ha : h.Allowed op) : ∃ g', g.le g' ∧ DInv (h.step op) g' := by
  have h1 := hi.inv
  have app : ∀ {d : List UInt8} {op : ROp}, op.step h.r = (if h.r.buffer.len + d.length ≤ h.r.buffer.capacity then
      (.ok (), { h.r with buffer := h.r.buffer.append d }) else (.err, h.r)) → (∀ n, op ≠ .skip n) → (∀ n c, op ≠ .name n c) →
      ∃ g', g.le g' ∧ DInv (h.step op) g' := by
    intro d op he n1 n2
    by_cases hfit : h.r.buffer.len + d.length ≤ h.r.buffer.capacity
    · rw [if_pos hfit] at he
      have hs : h.step op = ⟨{ h.r with buffer := h.r.buffer.append d }, h.hole, h.log⟩ := by
        unfold Hist.step
        rw [he]
        cases op <;> simp_all
      rw [hs]
      obtain ⟨a1, a2, a3⟩ := Render.RInv.append h1 hfit
      refine ⟨_, a2, hi.other a1 a2 rfl rfl ?_ ?_⟩
      · intro i hh; rw [Mem.ext_lt _ _ _ _ (hi.inside i hh)]; exact hi.free i hh
      · intro i hh; have := hi.inside i hh; simp only [OutBuf.append]; omega
    · rw [if_neg hfit] at he
      have hs : h.step op = h := by unfold Hist.step; rw [he]
      rw [hs]; exact ⟨g, Mem.le_refl g, hi⟩
  have pat : ∀ {p : Nat} {d : List UInt8} {op : ROp}, op.step h.r = (if p + d.length ≤ h.r.buffer.len then
      (.ok (), { h.r with buffer := ⟨overwrite h.r.buffer.data p d, h.r.buffer.len⟩ }) else (.err, h.r)) →
      (∀ i, p ≤ i → i < p + d.length → h.hole i = true) → (∀ n, op ≠ .skip n) → (∀ n c, op ≠ .name n c) →
      ∃ g', g.le g' ∧ DInv (h.step op) g' := by
    intro p d op he hh n1 n2
    by_cases hfit : p + d.length ≤ h.r.buffer.len
    · rw [if_pos hfit] at he
      have hs : h.step op = ⟨{ h.r with buffer := ⟨overwrite h.r.buffer.data p d, h.r.buffer.len⟩ }, h.hole, h.log⟩ := by
        unfold Hist.step
        rw [he]
        cases op <;> simp_all
      rw [hs]
      refine ⟨g, Mem.le_refl g, hi.other ?_ (Mem.le_refl g) rfl rfl hi.free hi.inside⟩
      have hc := OutBuf.contents_overwrite h1.buf hfit
      have hcl := OutBuf.contents_length h1.buf
      have hinv := h1.buf
      simp only [OutBuf.Inv, OutBuf.capacity] at hinv
      refine RInv.setBuffer h1 ?_ ?_
      · simp only [OutBuf.Inv, OutBuf.capacity]; rw [overwrite_length (by omega)]; exact hinv
      · rw [hc]
        intro i c hg
        have hm := h1.mem i c hg
        simp only [memOf] at hm ⊢
        rw [overwrite_getElem? (by omega)]
        by_cases hin : p ≤ i ∧ i < p + d.length
        · rw [hi.free i (hh i hin.1 hin.2)] at hg; simp at hg
        · rw [if_neg hin]; exact hm
    · rw [if_neg hfit] at he
      have hs : h.step op = h := by unfold Hist.step; rw [he]
      rw [hs]; exact ⟨g, Mem.le_refl g, hi⟩
  cases op with
  | name n c =>
    obtain ⟨ls, hv, hn⟩ := ha
    subst hn
    rcases write_name_has hv c h1 hi.has with ⟨r', out, e1, e2, e3⟩ | ⟨r', e1, e2, e3⟩
    · have hs : h.step (.name (ofLabels ls) c) = ⟨r', h.hole, (h.r.len, ofLabels ls, r'.len) :: h.log⟩ := by
        unfold Hist.step; simp only [ROp.step]; rw [e1]
      rw [hs]
      have hlen := e2.len
      refine ⟨g.ext h.r.buffer.len out, e2.le h1, e2.inv, ?_, ?_, ?_⟩
      · intro i hh; rw [Mem.ext_lt _ _ _ _ (hi.inside i hh)]; exact hi.free i hh
      · intro i hh; have := hi.inside i hh; simp only; omega
      · unfold Hist.dictionary
        simp only [List.foldr_cons, Render.len]
        rw [labels_ofLabels hv, hlen, Nat.add_sub_cancel_left]
        exact e3
    · have hs : h.step (.name (ofLabels ls) c) = ⟨r', h.hole, h.log⟩ := by
        unfold Hist.step; simp only [ROp.step]; rw [e1]
      rw [hs]
      rcases Render.write_name_spec hv c h1 with ⟨r1, out, a1, _⟩ | ⟨r1, d, a1, a2, a3, a4, a5⟩
      · rw [e1] at a1; simp at a1
      · rw [e1] at a1
        simp only [Prod.mk.injEq, true_and] at a1
        subst a1
        have hl : h.r.buffer.len ≤ r'.buffer.len := by
          rcases a3 with a3 | a3 <;> rw [a3]
          · simp [OutBuf.append]
          · exact Nat.le_refl _
        exact ⟨g, Mem.le_refl g, hi.other a4 (Mem.le_refl g) e2 e3 hi.free fun i hh => by have := hi.inside i hh; omega⟩
  | u8 d =>
    refine app (d := [d]) ?_ (by simp) (by simp)
    simp only [ROp.step, Render.write_u8]
    rw [Render.write_u8_r]
  | u16 d =>
    refine app (d := be16 d) ?_ (by simp) (by simp)
    simp only [ROp.step, Render.write_u16]
    rw [Render.write_u16_r]; rfl
  | u32 d =>
    refine app (d := be32 d) ?_ (by simp) (by simp)
    simp only [ROp.step, Render.write_u32]
    rw [Render.write_u32_r]
  | bytes d =>
    refine app (d := d) ?_ (by simp) (by simp)
    simp only [ROp.step, Render.write_bytes]
    rw [Render.write_bytes_r]
  | skip n =>
    unfold Hist.step
    simp only [ROp.step, Render.skip, Render.onBuffer_apply, OutBuf.skip]
    by_cases hfit : h.r.buffer.len + n < h.r.buffer.capacity
    · rw [if_pos hfit]
      refine ⟨g, Mem.le_refl g, hi.other ?_ (Mem.le_refl g) rfl rfl ?_ ?_⟩
      · refine RInv.setBuffer h1 ?_ ?_
        · simp only [OutBuf.Inv, OutBuf.capacity] at hfit ⊢; omega
        · intro i c hg
          have hm := h1.mem i c hg
          have hl := Render.mem_lt h1.buf h1.mem hg
          simp only [memOf, OutBuf.contents] at hm ⊢
          rw [List.getElem?_take_of_lt hl] at hm
          rw [List.getElem?_take_of_lt (by omega)]; exact hm
      · intro i hh
        simp only [Bool.or_eq_true, decide_eq_true_eq] at hh
        rcases hh with hh | hh
        · exact hi.free i hh
        · cases hg : g i with
          | none => rfl
          | some c => have := Render.mem_lt h1.buf h1.mem hg; simp only [Render.len] at hh; omega
      · intro i hh
        simp only [Bool.or_eq_true, decide_eq_true_eq] at hh
        rcases hh with hh | hh
        · have := hi.inside i hh; simp only; omega
        · simp only [Render.len] at hh ⊢; omega
    · rw [if_neg hfit]; exact ⟨g, Mem.le_refl g, hi⟩
  | u8At p d =>
    refine pat (p := p) (d := [d]) ?_ ?_ (by simp) (by simp)
    · simp only [ROp.step, Render.write_u8_at]
      rw [Render.write_u8_at_r _ _ _ h1.buf]
    · intro i h1 h2
      simp only [List.length_singleton] at h2
      have : i = p := by omega
      subst this; exact ha
  | u16At p d =>
    refine pat (p := p) (d := be16 d) ?_ ?_ (by simp) (by simp)
    · simp only [ROp.step, Render.write_u16_at]
      rw [Render.write_u16_at_r _ _ _ h1.buf]
    · intro i h1 h2
      simp only [be16, List.length_cons, List.length_nil] at h2
      by_cases hip : i = p
      · subst hip; exact ha.1
      · have : i = p + 1 := by omega
        subst this; exact ha.2

theorem DInv.new (backing : List UInt8) : DInv ⟨Render.new backing, fun _ => false, []⟩ Mem.none :=
  ⟨RInv.new _ _ fun _ => rfl, by simp, by simp, (DictOK.new _ _).toDictHas⟩

theorem Reached.dict {backing : List UInt8} {h : Hist} (hr : Reached backing h) : ∃ g, DInv h g := by
  induction hr with
  | new => exact ⟨_, DInv.new _⟩
  | step _ ha ih => obtain ⟨g, hi⟩ := ih; obtain ⟨g', _, hg⟩ := hi.step ha; exact ⟨g', hg⟩
  | @reset h _ ih =>
    obtain ⟨g, hi⟩ := ih
    rw [render_reset_eq hi.inv]
    exact ⟨_, DInv.new _⟩

/-- **C72, exact** after any history the next name comes out as the octets `seekLabels` makes of it with the names remembered, if they
fit; a name that is refused, or does not fit, is an error -/
theorem c72_exact {backing : List UInt8} {h : Hist} (hr : Reached backing h) {ls : List Label} (hv : ValidName ls) :
    (∀ x, seekLabels h.dictionary h.r.data.length ls = some x → h.r.data.length + x.1.length ≤ h.r.buffer.capacity →
      (Render.write_name (ofLabels ls) true h.r).1 = .ok () ∧ (Render.write_name (ofLabels ls) true h.r).2.data = h.r.data ++ x.1 ∧
        (h.step (.name (ofLabels ls) true)).dictionary = x.2) ∧
    ((∀ x, seekLabels h.dictionary h.r.data.length ls = some x → h.r.buffer.capacity < h.r.data.length + x.1.length) →
      (Render.write_name (ofLabels ls) true h.r).1 = .err ∧ (h.step (.name (ofLabels ls) true)).dictionary = h.dictionary) := by
  obtain ⟨g, hi⟩ := hr.dict
  have hl : h.r.data.length = h.r.buffer.len := OutBuf.contents_length hi.inv.buf
  rw [hl]
  obtain ⟨k1, k2⟩ := write_name_seek hv hi.inv hi.has
  refine ⟨fun x hx hfit => ?_, fun hno => ?_⟩
  · obtain ⟨r', e1, e2, e3⟩ := k1 x hx hfit
    have hs : h.step (.name (ofLabels ls) true) = ⟨r', h.hole, (h.r.len, ofLabels ls, r'.len) :: h.log⟩ := by
      unfold Hist.step; simp only [ROp.step]; rw [e1]
    rw [e1, hs]
    refine ⟨rfl, e2.data, ?_⟩
    unfold Hist.dictionary
    simp only [List.foldr_cons, Render.len]
    rw [labels_ofLabels hv, e2.len, Nat.add_sub_cancel_left]
    exact (seekLabels_remember hv hx).symm
  · have he := k2 fun x hx => by have := hno x hx; omega
    refine ⟨he, ?_⟩
    have hs : (h.step (.name (ofLabels ls) true)).log = h.log := by
      unfold Hist.step; simp only [ROp.step]
      generalize Render.write_name (ofLabels ls) true h.r = y at he
      obtain ⟨a, b⟩ := y
      simp only at he
      subst he
      rfl
    unfold Hist.dictionary
    rw [hs]

/-- what is remembered after a name is what `seekLabels` says, in terms of the octets it took only -/
example : remember [] 12 17 [[97], [101, 120]] = [([[97], [101, 120]], 12), ([[101, 120]], 14)] := by decide +kernel
/-- a name that was found at once: its two octets are a pointer -/
example : remember [] 12 2 [[97], [101, 120]] = [] := by decide +kernel

/-- the renderer of `c72_collision_violated`, after `rtmz.` and four times `rups.`: it remembers five names and refuses `rups.`, but not
`a.rtmz.`, which ends in the name found first -/
example : Reached (List.replicate 512 0) clashHist ∧ clashHist.dictionary.length = 5 ∧
    seekLabels clashHist.dictionary clashHist.r.data.length [[114, 117, 112, 115]] = none ∧
    (seekLabels clashHist.dictionary clashHist.r.data.length [[97], [114, 116, 109, 122]]).map (·.1) = some [1, 97, 192, 0] :=
  ⟨clashHist_reached, by decide +kernel, by decide +kernel, by decide +kernel⟩

end R53
