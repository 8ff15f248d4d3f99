import Verif.Proofs.Render8
import Verif.Props.Render
/-!
# C72: what was written before is not spelled again
-/
namespace R53
open Name (ofLabels)

/-- the names written so far -/
def Hist.names (h : Hist) : List Name := h.log.map fun x => x.2.1

/-- the labels (the root not counted) that were spelled out so far: of each name written those that end inside the octets it took -/
def Hist.labels (h : Hist) : Nat := (h.log.map fun x => (x.2.1.offsets.drop 1).countP (· < x.2.2 - x.1)).sum

/-- of these, the ones that went, with the rest of their name, to one of the 64 buckets of the table -/
def Hist.crowd (h : Hist) (bucket : Nat) : Nat :=
  (h.log.map fun x => (x.2.1.tails.zip (x.2.1.offsets.drop 1)).countP fun t =>
    t.2 < x.2.2 - x.1 ∧ (Render.hashBytes t.1).toNat % 64 = bucket).sum

/-- the buckets of a name and its parents have had at most 14 entries, so that each has a place left -/
def Hist.RoomFor (h : Hist) (n : Name) : Prop := ∀ t ∈ n.tails, h.crowd ((Render.hashBytes t).toNat % 64) ≤ 14

instance (h : Hist) (n : Name) : Decidable (h.RoomFor n) := by unfold Hist.RoomFor; infer_instance

/-- table part of the invariant, for a map of the settled octets -/
structure TabInv (h : Hist) (g : Mem) : Prop where
  inv : RInv h.r g
  free : ∀ i, h.hole i = true → g i = none
  inside : ∀ i, h.hole i = true → i < h.r.buffer.len
  wf : ∀ n ∈ h.names, n.WF
  tagged : Tagged (TailSet h.names) h.r g
  known : h.r.buffer.len ≤ 0x4000 → ∀ ls, TailSet h.names ls → Render.NotFull h.r (Render.hashBytes (nameWire ls)) → Render.HasItem h.r ls
  crowd : ∀ x : UInt32, (Render.bucketItems h.r x).length ≤ h.crowd (x.toNat % 64)

theorem tailSet_drop {ns : List Name} (hw : ∀ n ∈ ns, n.WF) {c : List Label} (h : TailSet ns c) :
    ∃ xs i, ValidName xs ∧ ofLabels xs ∈ ns ∧ i < xs.length ∧ c = xs.drop i := by
  obtain ⟨n, hn, hc1⟩ := List.mem_flatMap.mp h.1
  obtain ⟨ls, hv, rfl⟩ := hw n hn
  simp only [Name.tails] at hc1
  rw [Name.ofLabels_count, Name.ofLabels_offsets, Name.ofLabels_raw, Nat.add_sub_cancel] at hc1
  obtain ⟨o, ho1, ho2⟩ := List.mem_map.mp hc1
  obtain ⟨i, hi⟩ := List.mem_iff_getElem?.mp ho1
  have hil : i < ls.length := by
    have := (List.getElem?_eq_some_iff.mp hi).1
    rw [List.length_take] at this
    omega
  rw [List.getElem?_take_of_lt hil, starts_getElem? 0 (ls ++ [[]]) i (by simp; omega)] at hi
  simp only [Option.some.injEq, Nat.zero_add] at hi
  refine ⟨ls, i, hv, hn, hil, ?_⟩
  rw [← hi, wire_drop, List.drop_append_of_le_length (by omega), ← nameWire_eq] at ho2
  exact (Render.nameWire_inj (fun l hl => hv.1 l (List.mem_of_mem_drop hl)) h.2 ho2).symm

theorem tailSet_of_drop {ns : List Name} {xs : List Label} (hv : ValidName xs) (hm : ofLabels xs ∈ ns) {i : Nat} (hi : i < xs.length) : TailSet ns (xs.drop i) :=
  ⟨List.mem_flatMap.mpr ⟨_, hm, tails_ofLabels hi⟩, fun l hl => hv.1 l (List.mem_of_mem_drop hl)⟩

theorem HasItem_same {r r' : Render} (h1 : r'.table = r.table) (h2 : r'.item_counts = r.item_counts) {ls : List Label} :
    Render.HasItem r' ls ↔ Render.HasItem r ls := by
  unfold Render.HasItem Render.bucketItems; rw [h1, h2]

theorem zip_tails {ls : List Label} {m : Nat} (hm : m ≤ ls.length) : ((ofLabels ls).tails.zip ((ofLabels ls).offsets.drop 1)).take m =
    (List.range' 0 m).map fun j => (nameWire (ls.drop j), (wire (ls.take (j + 1))).length) := by
  have hsl : (starts 0 (ls ++ [[]])).length = ls.length + 1 := by rw [starts_length]; simp
  unfold Name.tails
  rw [Name.ofLabels_count, Name.ofLabels_offsets, Name.ofLabels_raw, Nat.add_sub_cancel]
  apply List.ext_getElem?
  intro j
  rw [List.getElem?_map]
  by_cases hj : j < m
  · rw [List.getElem?_take_of_lt hj, List.getElem?_range' (by omega)]
    rw [(List.getElem?_zip_eq_some (z := (nameWire (ls.drop j), (wire (ls.take (j + 1))).length))).mpr ⟨?_, ?_⟩]
    · simp
    · rw [List.getElem?_map, List.getElem?_take_of_lt (by omega), starts_getElem? 0 (ls ++ [[]]) j (by simp; omega)]
      simp only [Option.map_some, Nat.zero_add, Option.some.injEq]
      rw [wire_drop, List.drop_append_of_le_length (by omega), ← nameWire_eq]
    · rw [List.getElem?_drop, starts_getElem? 0 (ls ++ [[]]) (1 + j) (by simp; omega)]
      simp only [Nat.zero_add, Option.some.injEq]
      rw [List.take_append_of_le_length (by omega), Nat.add_comm]
  · rw [List.getElem?_eq_none (by rw [List.length_take]; omega), List.getElem?_eq_none (by simp; omega)]; rfl

/-- the labels that were entered were spelled -/
theorem crowd_le {ls : List Label} {m d : Nat} (h : (wire (ls.take (min m ls.length))).length < d) (x : UInt32) :
    Render.crowd ls 0 (min m ls.length) x ≤
      ((ofLabels ls).tails.zip ((ofLabels ls).offsets.drop 1)).countP fun t => t.2 < d ∧ (Render.hashBytes t.1).toNat % 64 = x.toNat % 64 := by
  generalize hk : min m ls.length = k at h
  have hkl : k ≤ ls.length := by omega
  refine Nat.le_trans ?_ ((List.take_sublist k _).countP_le)
  rw [zip_tails hkl, List.countP_map]
  unfold Render.crowd
  apply List.countP_mono_left
  intro j hj hx
  simp only [decide_eq_true_eq] at hx
  have hjk : j < k := by simpa using hj
  simp only [Function.comp_apply, decide_eq_true_eq]
  refine ⟨?_, ?_⟩
  · have : (wire (ls.take (j + 1))).length ≤ (wire (ls.take k)).length := by
      have := wire_take_le (ls.take k) (j + 1)
      rw [List.take_take, Nat.min_eq_left (by omega)] at this
      exact this
    omega
  · have := congrArg UInt32.toNat hx
    simpa [UInt32.toNat_mod] using this

/-- another map, another buffer, the same table -/
theorem TabInv.other {h : Hist} {g g' : Mem} (hi : TabInv h g) {r' : Render} {hole' : Nat → Bool} (h1 : RInv r' g') (hg : g.le g')
    (ht : r'.table = h.r.table) (hc : r'.item_counts = h.r.item_counts) (hlen : h.r.buffer.len ≤ r'.buffer.len)
    (hf : ∀ i, hole' i = true → g' i = none) (hin : ∀ i, hole' i = true → i < r'.buffer.len) : TabInv ⟨r', hole', h.log⟩ g' := by
  refine ⟨h1, hf, hin, hi.wf, (hi.tagged.le hg).same ht hc, fun hl ls hls hn => ?_, fun x => ?_⟩
  · simp only at hl hn ⊢
    rw [HasItem_same ht hc]
    refine hi.known (by omega) ls hls ?_
    unfold Render.NotFull Render.bucketItems at hn ⊢
    rw [← hc, ← ht]; exact hn
  · have := hi.crowd x
    unfold Render.bucketItems at this ⊢
    simp only; rw [hc, ht]; exact this

theorem TabInv.step {h : Hist} {g : Mem} (hi : TabInv h g) {op : ROp} (ha : h.Allowed op) : ∃ g', TabInv (h.step op) g' := by
  have h1 := hi.inv
  have app : ∀ {d : List UInt8} {op : ROp}, op.step h.r = (if h.r.buffer.len + d.length ≤ h.r.buffer.capacity then
      (.ok (), { h.r with buffer := h.r.buffer.append d }) else (.err, h.r)) → (∀ n, op ≠ .skip n) → (∀ n c, op ≠ .name n c) →
      ∃ g', TabInv (h.step op) g' := by
    intro d op he n1 n2
    by_cases hfit : h.r.buffer.len + d.length ≤ h.r.buffer.capacity
    · rw [if_pos hfit] at he
      have hs : h.step op = ⟨{ h.r with buffer := h.r.buffer.append d }, h.hole, h.log⟩ := by
        unfold Hist.step
        rw [he]
        cases op <;> simp_all
      rw [hs]
      obtain ⟨a1, a2, a3⟩ := Render.RInv.append h1 hfit
      refine ⟨_, hi.other a1 a2 rfl rfl (by simp [OutBuf.append]) ?_ ?_⟩
      · intro i hh; rw [Mem.ext_lt _ _ _ _ (hi.inside i hh)]; exact hi.free i hh
      · intro i hh; have := hi.inside i hh; simp only [OutBuf.append]; omega
    · rw [if_neg hfit] at he
      have hs : h.step op = h := by unfold Hist.step; rw [he]
      rw [hs]; exact ⟨g, hi⟩
  have pat : ∀ {p : Nat} {d : List UInt8} {op : ROp}, op.step h.r = (if p + d.length ≤ h.r.buffer.len then
      (.ok (), { h.r with buffer := ⟨overwrite h.r.buffer.data p d, h.r.buffer.len⟩ }) else (.err, h.r)) →
      (∀ i, p ≤ i → i < p + d.length → h.hole i = true) → (∀ n, op ≠ .skip n) → (∀ n c, op ≠ .name n c) →
      ∃ g', TabInv (h.step op) g' := by
    intro p d op he hh n1 n2
    by_cases hfit : p + d.length ≤ h.r.buffer.len
    · rw [if_pos hfit] at he
      have hs : h.step op = ⟨{ h.r with buffer := ⟨overwrite h.r.buffer.data p d, h.r.buffer.len⟩ }, h.hole, h.log⟩ := by
        unfold Hist.step
        rw [he]
        cases op <;> simp_all
      rw [hs]
      refine ⟨g, hi.other ?_ (Mem.le_refl g) rfl rfl (Nat.le_refl _) hi.free hi.inside⟩
      have hc := OutBuf.contents_overwrite h1.buf hfit
      have hcl := OutBuf.contents_length h1.buf
      have hinv := h1.buf
      simp only [OutBuf.Inv, OutBuf.capacity] at hinv
      refine RInv.setBuffer h1 ?_ ?_
      · simp only [OutBuf.Inv, OutBuf.capacity]; rw [overwrite_length (by omega)]; exact hinv
      · rw [hc]
        intro i c hg
        have hm := h1.mem i c hg
        simp only [memOf] at hm ⊢
        rw [overwrite_getElem? (by omega)]
        by_cases hin : p ≤ i ∧ i < p + d.length
        · rw [hi.free i (hh i hin.1 hin.2)] at hg; simp at hg
        · rw [if_neg hin]; exact hm
    · rw [if_neg hfit] at he
      have hs : h.step op = h := by unfold Hist.step; rw [he]
      rw [hs]; exact ⟨g, hi⟩
  cases op with
  | name n c =>
    obtain ⟨ls, hv, hn⟩ := ha
    subst hn
    have hmem : ∀ x, TailSet h.names x → TailSet (ofLabels ls :: h.names) x := fun x hx =>
      ⟨by rw [List.flatMap_cons]; exact List.mem_append_right _ hx.1, hx.2⟩
    have hls : ∀ i, i < ls.length → TailSet (ofLabels ls :: h.names) (ls.drop i) := fun i hi => tailSet_of_drop hv (by simp) hi
    rcases Render.write_name_table hmem hv hls c h1 hi.tagged with ⟨lu, off, r', e1, e2, e3, e4, e5, e6, e7, e8, e9, e10⟩ | ⟨r', e1, e2, e3⟩
    · have hs : h.step (.name (ofLabels ls) c) = ⟨r', h.hole, (h.r.len, ofLabels ls, r'.len) :: h.log⟩ := by
        unfold Hist.step; simp only [ROp.step]; rw [e1]
      rw [hs]
      have hlen := e3.len
      refine ⟨g.ext h.r.buffer.len (Render.emitted ls lu off), e3.inv, ?_, ?_, ?_, e5, ?_, ?_⟩
      · intro i hh; rw [Mem.ext_lt _ _ _ _ (hi.inside i hh)]; exact hi.free i hh
      · intro i hh; have := hi.inside i hh; simp only; omega
      · intro n hn
        simp only [Hist.names, List.map_cons, List.mem_cons] at hn
        rcases hn with rfl | hn
        · exact ⟨ls, hv, rfl⟩
        · exact hi.wf n hn
      · intro hl x hx hnf
        simp only at hl hnf ⊢
        have hold := fun y hy hn => hi.known (by omega) y hy (e6.full hn)
        have hxx : TailSet (ofLabels ls :: h.names) x := hx
        obtain ⟨xs, i, x1, x2, x3, rfl⟩ := tailSet_drop (fun n hn => by
          rcases List.mem_cons.mp hn with rfl | hn
          · exact ⟨ls, hv, rfl⟩
          · exact hi.wf n hn) hxx
        rcases List.mem_cons.mp x2 with x2 | x2
        · obtain rfl := Name.ofLabels_inj x1 hv x2
          by_cases hlu : i < lu
          · refine e8 i hlu x3 ?_ hnf
            rcases e2 with ⟨a1, a2⟩ | ⟨a1, a2, a3, _⟩
            · simp only [Render.emitted, if_pos a1] at hlen
              have := wire_take_le xs i
              simp only [nameWire, List.length_append, List.length_singleton] at hlen
              omega
            · simp only [Render.emitted, if_neg a2, List.length_append, List.length_cons, List.length_nil] at hlen
              have : (wire (xs.take i)).length ≤ (wire (xs.take lu)).length := by
                have := wire_take_le (xs.take lu) i
                rw [List.take_take, Nat.min_eq_left (by omega)] at this
                exact this
              omega
          · obtain ⟨ys, j, y1, y2, y3, y4⟩ := tailSet_drop hi.wf (e4 (by omega))
            have : xs.drop i = ys.drop (j + (i - lu)) := by
              rw [← List.drop_drop, ← y4, List.drop_drop]; congr 1; omega
            refine e6.has (hold _ ?_ hnf)
            rw [this]
            refine tailSet_of_drop y1 y2 ?_
            have := congrArg List.length y4
            simp only [List.length_drop] at this
            omega
        · exact e6.has (hold _ (tailSet_of_drop x1 x2 x3) hnf)
      · intro x
        simp only [Hist.crowd, List.map_cons, List.sum_cons]
        have h2 := hi.crowd x
        simp only [Hist.crowd] at h2
        have hsp := crowd_le (ls := ls) (m := lu) (d := r'.len - h.r.len) (by
          simp only [Render.len]
          rcases e2 with ⟨a1, a2⟩ | ⟨a1, a2, a3, _⟩
          · simp only [Render.emitted, if_pos a1, nameWire, List.length_append, List.length_singleton] at hlen
            rw [Nat.min_eq_right (by omega), List.take_length]
            omega
          · simp only [Render.emitted, if_neg a2, List.length_append, List.length_cons, List.length_nil] at hlen
            rw [Nat.min_eq_left (by omega)]
            omega) x
        have := e7 x
        omega
    · have hs : h.step (.name (ofLabels ls) c) = ⟨r', h.hole, h.log⟩ := by
        unfold Hist.step; simp only [ROp.step]; rw [e1]
      rw [hs]
      rcases Render.write_name_spec hv c h1 with ⟨r1, out, a1, _⟩ | ⟨r1, d, a1, a2, a3, a4, a5⟩
      · rw [e1] at a1; simp at a1
      · rw [e1] at a1
        simp only [Prod.mk.injEq, true_and] at a1
        subst a1
        have hl : h.r.buffer.len ≤ r'.buffer.len := by
          rcases a3 with a3 | a3 <;> rw [a3]
          · simp [OutBuf.append]
          · exact Nat.le_refl _
        exact ⟨g, hi.other a4 (Mem.le_refl g) e2 e3 hl hi.free fun i hh => by have := hi.inside i hh; omega⟩
  | u8 d =>
    refine app (d := [d]) ?_ (by simp) (by simp)
    simp only [ROp.step, Render.write_u8]
    rw [Render.write_u8_r]
  | u16 d =>
    refine app (d := be16 d) ?_ (by simp) (by simp)
    simp only [ROp.step, Render.write_u16]
    rw [Render.write_u16_r]; rfl
  | u32 d =>
    refine app (d := be32 d) ?_ (by simp) (by simp)
    simp only [ROp.step, Render.write_u32]
    rw [Render.write_u32_r]
  | bytes d =>
    refine app (d := d) ?_ (by simp) (by simp)
    simp only [ROp.step, Render.write_bytes]
    rw [Render.write_bytes_r]
  | skip n =>
    unfold Hist.step
    simp only [ROp.step, Render.skip, Render.onBuffer_apply, OutBuf.skip]
    by_cases hfit : h.r.buffer.len + n < h.r.buffer.capacity
    · rw [if_pos hfit]
      refine ⟨g, hi.other ?_ (Mem.le_refl g) rfl rfl (by simp) ?_ ?_⟩
      · refine RInv.setBuffer h1 ?_ ?_
        · simp only [OutBuf.Inv, OutBuf.capacity] at hfit ⊢; omega
        · intro i c hg
          have hm := h1.mem i c hg
          have hl := Render.mem_lt h1.buf h1.mem hg
          simp only [memOf, OutBuf.contents] at hm ⊢
          rw [List.getElem?_take_of_lt hl] at hm
          rw [List.getElem?_take_of_lt (by omega)]; exact hm
      · intro i hh
        simp only [Bool.or_eq_true, decide_eq_true_eq] at hh
        rcases hh with hh | hh
        · exact hi.free i hh
        · cases hg : g i with
          | none => rfl
          | some c => have := Render.mem_lt h1.buf h1.mem hg; simp only [Render.len] at hh; omega
      · intro i hh
        simp only [Bool.or_eq_true, decide_eq_true_eq] at hh
        rcases hh with hh | hh
        · have := hi.inside i hh; simp only; omega
        · simp only [Render.len] at hh ⊢; omega
    · rw [if_neg hfit]; exact ⟨g, hi⟩
  | u8At p d =>
    refine pat (p := p) (d := [d]) ?_ ?_ (by simp) (by simp)
    · simp only [ROp.step, Render.write_u8_at]
      rw [Render.write_u8_at_r _ _ _ h1.buf]
    · intro i h1 h2
      simp only [List.length_singleton] at h2
      have : i = p := by omega
      subst this; exact ha
  | u16At p d =>
    refine pat (p := p) (d := be16 d) ?_ ?_ (by simp) (by simp)
    · simp only [ROp.step, Render.write_u16_at]
      rw [Render.write_u16_at_r _ _ _ h1.buf]
    · intro i h1 h2
      simp only [be16, List.length_cons, List.length_nil] at h2
      by_cases hip : i = p
      · subst hip; exact ha.1
      · have : i = p + 1 := by omega
        subst this; exact ha.2

theorem TabInv.new (backing : List UInt8) : TabInv ⟨Render.new backing, fun _ => false, []⟩ Mem.none :=
  ⟨RInv.new _ _ fun _ => rfl, by simp, by simp, by simp [Hist.names], Tagged.new _ _ _, fun _ ls hls _ => by simp [TailSet, Hist.names] at hls,
    fun x => by
      have hb := Render.bucket_lt x
      unfold Render.bucketItems Render.new
      generalize (x % 64).toNat = b at hb
      simp only [List.getElem?_replicate, BUCKETS, if_pos hb, Option.getD_some, List.take_zero]
      simp⟩

theorem Reached.tab {backing : List UInt8} {h : Hist} (hr : Reached backing h) : ∃ g, TabInv h g := by
  induction hr with
  | new => exact ⟨_, TabInv.new _⟩
  | step _ ha ih => obtain ⟨g, hi⟩ := ih; exact hi.step ha
  | @reset h _ ih =>
    obtain ⟨g, hi⟩ := ih
    rw [render_reset_eq hi.inv]
    exact ⟨_, TabInv.new _⟩

theorem notFull_of_crowd {h : Hist} {g : Mem} (hi : TabInv h g) {ls : List Label} (hr : h.RoomFor (ofLabels ls)) {i : Nat} (hil : i < ls.length) :
    Render.NotFull h.r (Render.hashBytes (nameWire (ls.drop i))) := by
  have h1 := hi.crowd (Render.hashBytes (nameWire (ls.drop i)))
  have h2 := hr _ (tails_ofLabels hil)
  unfold Render.NotFull
  omega

/-- few labels leave every bucket with free places -/
theorem roomFor_of_labels {h : Hist} (hl : h.labels ≤ 14) (n : Name) : h.RoomFor n := by
  intro t _
  refine Nat.le_trans ?_ hl
  unfold Hist.crowd Hist.labels
  induction h.log with
  | nil => simp
  | cons x xs ih =>
    simp only [List.map_cons, List.sum_cons]
    refine Nat.add_le_add ?_ ih
    generalize (Render.hashBytes t).toNat % 64 = b
    generalize x.2.2 - x.1 = d
    generalize x.2.1.tails = ts
    generalize x.2.1.offsets.drop 1 = os
    induction ts generalizing os with
    | nil => simp
    | cons t ts ih2 =>
      cases os with
      | nil => simp
      | cons o os =>
        simp only [List.zip_cons_cons, List.countP_cons]
        have := ih2 os
        by_cases ho : o < d
        · simp only [ho, true_and, decide_true, if_true]
          split <;> omega
        · simp only [ho, false_and, decide_false, Bool.false_eq_true, if_false]
          omega

/-! ## C72 -/

/-- the first label of `ls` from which on the rest of the name is a written name or a parent of one; the number of labels if
there is none -/
def FirstKnown (written : List (List Label)) (ls : List Label) (i : Nat) : Prop :=
  i ≤ ls.length ∧ (i < ls.length → ∃ w ∈ written, ls.drop i <:+ w) ∧ ∀ j, j < i → ∀ w ∈ written, ¬ ls.drop j <:+ w

/-- there is always exactly one such label -/
theorem firstKnown_exists (written : List (List Label)) (ls : List Label) : ∃ i, FirstKnown written ls i := by
  have key : ∀ k, k ≤ ls.length → (∃ i, i < ls.length ∧ FirstKnown written ls i) ∨ ∀ j, j < k → ∀ w ∈ written, ¬ ls.drop j <:+ w := by
    intro k
    induction k with
    | zero => intro _; right; intro j hj; omega
    | succ k ih =>
      intro hk
      rcases ih (by omega) with h | h
      · exact Or.inl h
      · by_cases hx : ∃ w ∈ written, ls.drop k <:+ w
        · exact Or.inl ⟨k, by omega, by omega, fun _ => hx, h⟩
        · right
          intro j hj w hw hs
          by_cases hjk : j = k
          · subst hjk; exact hx ⟨w, hw, hs⟩
          · exact h j (by omega) w hw hs
  rcases key ls.length (Nat.le_refl _) with ⟨i, _, h⟩ | h
  · exact ⟨i, h⟩
  · exact ⟨ls.length, Nat.le_refl _, fun h => by omega, h⟩

theorem FirstKnown.unique {written : List (List Label)} {ls : List Label} {i j : Nat} (hi : FirstKnown written ls i) (hj : FirstKnown written ls j) : i = j := by
  rcases Nat.lt_trichotomy i j with h | h | h
  · obtain ⟨w, hw, hs⟩ := hi.2.1 (by have := hj.1; omega)
    exact absurd hs (hj.2.2 i h w hw)
  · exact h
  · obtain ⟨w, hw, hs⟩ := hj.2.1 (by have := hi.1; omega)
    exact absurd hs (hi.2.2 j h w hw)

theorem tailSet_suffix {ns : List Name} {written : List (List Label)} (hn : ns = written.map ofLabels) (hw : ∀ w ∈ written, ValidName w)
    {c : List Label} : (TailSet ns c ↔ c ≠ [] ∧ ∃ w ∈ written, c <:+ w) := by
  subst hn
  constructor
  · intro h
    obtain ⟨xs, i, x1, x2, x3, rfl⟩ := tailSet_drop (fun n hn => by
      obtain ⟨w, h1, rfl⟩ := List.mem_map.mp hn; exact ⟨w, hw w h1, rfl⟩) h
    obtain ⟨w, w1, w2⟩ := List.mem_map.mp x2
    obtain rfl := Name.ofLabels_inj (hw w w1) x1 w2
    exact ⟨by simp; omega, w, w1, List.drop_suffix _ _⟩
  · rintro ⟨hne, w, h1, h2⟩
    obtain ⟨a, rfl⟩ := h2
    have := tailSet_of_drop (ns := written.map ofLabels) (hw _ h1) (List.mem_map.mpr ⟨_, h1, rfl⟩) (i := a.length)
      (by have := List.length_pos_iff.mpr hne; simp; omega)
    rwa [List.drop_left] at this

/-- the octets for a name of which only the first `i` labels have to be spelled: those labels, and then the end or a pointer -/
def SpelledUpTo (ls : List Label) (i : Nat) (out : List UInt8) : Prop :=
  (i = ls.length ∧ out = nameWire ls) ∨
  (i < ls.length ∧ ∃ hi lo : UInt8, 192 ≤ hi.toNat ∧ out = wire (ls.take i) ++ [hi, lo])

/-- **C72** After any history in which the message is not longer than 0x4000 octets and the buckets of the name and its parents have
had at most 14 entries, a name written with compression is spelled exactly up to the point from which on the rest was written
before, and there a pointer follows; it is written exactly when these octets fit -/
theorem c72_spelled_once {backing : List UInt8} {h : Hist} (hr : Reached backing h) {written : List (List Label)}
    (hwn : h.names = written.map ofLabels) (hw : ∀ w ∈ written, ValidName w) {ls : List Label} (hv : ValidName ls)
    (hc : ClashFree (ofLabels ls :: h.names)) (hlen : h.r.data.length ≤ 0x4000) (hl : h.RoomFor (ofLabels ls)) {i : Nat} (hi : FirstKnown written ls i) :
    ∃ out, SpelledUpTo ls i out ∧
      (h.r.data.length + out.length ≤ h.r.buffer.capacity →
        (Render.write_name (ofLabels ls) true h.r).1 = .ok () ∧ (Render.write_name (ofLabels ls) true h.r).2.data = h.r.data ++ out) ∧
      (¬ h.r.data.length + out.length ≤ h.r.buffer.capacity → (Render.write_name (ofLabels ls) true h.r).1 = .err) := by
  obtain ⟨g, ti⟩ := hr.tab
  have hcl : h.r.data.length = h.r.buffer.len := OutBuf.contents_length ti.inv.buf
  have hmem : ∀ x, TailSet h.names x → TailSet (ofLabels ls :: h.names) x := fun x hx =>
    ⟨by rw [List.flatMap_cons]; exact List.mem_append_right _ hx.1, hx.2⟩
  have hls : ∀ i, i < ls.length → TailSet (ofLabels ls :: h.names) (ls.drop i) := fun i hi => tailSet_of_drop hv (by simp) hi
  obtain ⟨lu, off, k1, k2, k3, k4, k5⟩ := Render.write_name_exact hc.noClash hv hls true ti.inv (ti.tagged.weaken hmem)
  have hknown := fun j hj hx => ti.known (by omega) (ls.drop j) hx (notFull_of_crowd ti hl hj)
  have hset := fun c => tailSet_suffix (c := c) hwn hw
  refine ⟨Render.emitted ls lu off, ?_, ?_, ?_⟩
  · rcases k1 with ⟨a1, a2⟩ | ⟨_, a1, a2, a3, _⟩
    · left
      refine ⟨?_, by simp only [Render.emitted, if_pos a1]⟩
      rcases Nat.lt_or_ge i ls.length with hlt | hge
      · exfalso
        exact k2 rfl i (by omega) hlt (hknown _ hlt ((hset _).mpr ⟨by simp; omega, hi.2.1 hlt⟩))
      · have := hi.1; omega
    · have hfk : FirstKnown written ls lu := by
        refine ⟨by omega, fun hlt => ((hset _).mp ((k3 hlt).2 _ ti.tagged)).2, fun j hj w hw' hs => ?_⟩
        exact k2 rfl j hj (by omega) (hknown _ (by omega) ((hset _).mpr ⟨by simp; omega, w, hw', hs⟩))
      obtain rfl := hi.unique hfk
      right
      refine ⟨a2, _, _, ?_, by simp only [Render.emitted, if_neg a1]; rfl⟩
      simp only [UInt8.toNat_ofNat']
      omega
  · intro hfit
    rw [hcl] at hfit
    obtain ⟨r', e1, e2, _⟩ := k4 hfit
    rw [e1]
    refine ⟨rfl, ?_⟩
    simp only [Render.data]
    rw [e2.buf, OutBuf.append_contents hfit]
  · intro hfit
    rw [hcl] at hfit
    exact (k5 hfit).1

/-- a name other than the root that was written before takes two octets -/
theorem c72_again_two_octets {backing : List UInt8} {h : Hist} (hr : Reached backing h) {written : List (List Label)}
    (hwn : h.names = written.map ofLabels) (hw : ∀ w ∈ written, ValidName w) {ls : List Label} (hls : ls ∈ written) (hne : ls ≠ [])
    (hc : ClashFree h.names) (hlen : h.r.data.length ≤ 0x4000) (hl : h.RoomFor (ofLabels ls)) (hfit : h.r.data.length + 2 ≤ h.r.buffer.capacity) :
    (Render.write_name (ofLabels ls) true h.r).1 = .ok () ∧
    ∃ hi lo : UInt8, 192 ≤ hi.toNat ∧ (Render.write_name (ofLabels ls) true h.r).2.data = h.r.data ++ [hi, lo] := by
  have hpos := List.length_pos_iff.mpr hne
  have hc' : ClashFree (ofLabels ls :: h.names) := by
    have hsub : ∀ a ∈ (ofLabels ls :: h.names).flatMap Name.tails, a ∈ h.names.flatMap Name.tails := by
      intro a ha
      rw [List.flatMap_cons] at ha
      rcases List.mem_append.mp ha with ha | ha
      · exact List.mem_flatMap.mpr ⟨_, by rw [hwn]; exact List.mem_map.mpr ⟨ls, hls, rfl⟩, ha⟩
      · exact ha
    exact fun a ha b hb => hc a (hsub a ha) b (hsub b hb)
  have hfk : FirstKnown written ls 0 := ⟨by omega, fun _ => ⟨ls, hls, by simp⟩, fun j hj => by omega⟩
  obtain ⟨out, o1, o2, _⟩ := c72_spelled_once hr hwn hw (hw ls hls) hc' hlen hl hfk
  rcases o1 with ⟨o1, _⟩ | ⟨_, hi, lo, o1, rfl⟩
  · omega
  · simp only [List.take_zero, wire, List.nil_append, List.flatMap_nil] at o2
    obtain ⟨e1, e2⟩ := o2 (by simpa using hfit)
    exact ⟨e1, hi, lo, o1, e2⟩

/-- the sample history wrote a.b and c.b; d.a.b is then spelled up to a.b -/
theorem sampleHist_reached : Reached (List.replicate 40 0) sampleHist := by
  refine .step (.step (.step (.step .new trivial) ?_) ?_) ?_
  · exact ⟨[[97], [98]], by decide, rfl⟩
  · exact ⟨[[99], [98]], by decide, rfl⟩
  · exact ⟨by decide +kernel, by decide +kernel⟩

example : sampleHist.names = [[[99], [98]], [[97], [98]]].map ofLabels ∧ sampleHist.labels = 3 ∧ sampleHist.r.data.length = 11 ∧
    ClashFree (ofLabels [[100], [97], [98]] :: sampleHist.names) ∧ sampleHist.RoomFor (ofLabels [[100], [97], [98]]) := by decide +kernel
example : FirstKnown [[[99], [98]], [[97], [98]]] [[100], [97], [98]] 1 := by
  refine ⟨by decide, fun _ => ⟨[[97], [98]], by simp, by decide⟩, fun j hj w hw => ?_⟩
  obtain rfl : j = 0 := by omega
  simp only [List.mem_cons, List.not_mem_nil, or_false] at hw
  rcases hw with rfl | rfl <;> decide
example : (Render.write_name (ofLabels [[100], [97], [98]]) true sampleHist.r).2.data = sampleHist.r.data ++ [1, 100, 0xC0, 2] := by decide +kernel
example : (Render.write_name (ofLabels [[99], [98]]) true sampleHist.r).2.data = sampleHist.r.data ++ [0xC0, 7] := by decide +kernel

/-- writes "rtmz." once and "rups." four times; both have the same length and the same hash -/
def clashHist : Hist :=
  (((((⟨Render.new (List.replicate 512 0), fun _ => false, []⟩ : Hist).step (.name (ofLabels [[114, 116, 109, 122]]) true)).step
    (.name (ofLabels [[114, 117, 112, 115]]) true)).step (.name (ofLabels [[114, 117, 112, 115]]) true)).step
    (.name (ofLabels [[114, 117, 112, 115]]) true)).step (.name (ofLabels [[114, 117, 112, 115]]) true)

theorem clashHist_reached : Reached (List.replicate 512 0) clashHist := by
  refine .step (.step (.step (.step (.step .new ?_) ?_) ?_) ?_) ?_ <;> exact ⟨_, by decide, rfl⟩

/-- **violated** for names whose hashes collide: each copy of "rups." is spelled again, and the fifth is refused although there is room -/
theorem c72_collision_violated : Reached (List.replicate 512 0) clashHist ∧
    clashHist.r.data = nameWire [[114, 116, 109, 122]] ++ nameWire [[114, 117, 112, 115]] ++ nameWire [[114, 117, 112, 115]] ++
      nameWire [[114, 117, 112, 115]] ++ nameWire [[114, 117, 112, 115]] ∧
    (Render.write_name (ofLabels [[114, 117, 112, 115]]) true clashHist.r).1 = .err := by
  exact ⟨clashHist_reached, by decide +kernel, by decide +kernel⟩

end R53
