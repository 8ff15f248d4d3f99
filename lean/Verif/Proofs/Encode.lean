import Verif.Spec.Encode
import Verif.Proofs.Render8
/-!
# The renderer follows the reference encoder: names
-/
namespace R53
open Name (ofLabels)

/-! ## the reference encoder on names -/

/-- the dictionary after the entries for the first `n` labels -/
def regs (k : Memory) (d : Dict) (pos : Nat) : Nat → List Label → Dict
  | 0, _ => d
  | _ + 1, [] => d
  | n + 1, l :: ls => regs k (if pos ≤ 0x3fff ∧ k d (l :: ls) then d ++ [(l :: ls, pos)] else d) (pos + (l.length + 1)) n ls

theorem regs_big (k : Memory) (d : Dict) {pos : Nat} (h : ¬ pos ≤ 0x3fff) (n : Nat) (ls : List Label) : regs k d pos n ls = d := by
  induction n generalizing d pos ls with
  | zero => rfl
  | succ n ih => cases ls with
    | nil => rfl
    | cons l ls => rw [regs, if_neg (fun hx => h hx.1), ih d (by omega)]

theorem regs_grows (k : Memory) (d : Dict) (pos n : Nat) (ls : List Label) : d <+: regs k d pos n ls := by
  induction n generalizing d pos ls with
  | zero => exact List.prefix_refl d
  | succ n ih => cases ls with
    | nil => exact List.prefix_refl d
    | cons l ls =>
      refine List.IsPrefix.trans ?_ (ih _ _ _)
      split
      · exact List.prefix_append _ _
      · exact List.prefix_refl d

theorem lookup_append {α β : Type} [BEq α] (a b : List (α × β)) (k : α) : (a ++ b).lookup k = (a.lookup k).or (b.lookup k) := by
  induction a with
  | nil => simp
  | cons x a ih =>
    obtain ⟨xa, xb⟩ := x
    simp only [List.cons_append, List.lookup_cons]
    cases (k == xa) with
    | true => simp
    | false => exact ih

theorem encLabels_spell (k : Memory) (i : Nat) (d : Dict) (pos : Nat) (ls : List Label) (h : ∀ j, j < i → j < ls.length → d.lookup (ls.drop j) = none)
    (hi : i < ls.length ∨ i = ls.length + 1) :
    encLabels k d pos ls = if i < ls.length then
        let x := encLabels k (regs k d pos i ls) (pos + (wire (ls.take i)).length) (ls.drop i)
        (wire (ls.take i) ++ x.1, x.2)
      else (nameWire ls, regs k d pos i ls) := by
  induction ls generalizing i d pos with
  | nil =>
    rw [if_neg (by simp)]
    cases i <;> simp [encLabels, regs, nameWire, wire]
  | cons l ls ih =>
    cases i with
    | zero => simp [regs, wire]
    | succ i =>
      have h0 : d.lookup (l :: ls) = none := h 0 (by omega) (by simp)
      have hrec := ih i (if pos ≤ 0x3fff ∧ k d (l :: ls) then d ++ [(l :: ls, pos)] else d) (pos + (l.length + 1)) (fun j h1 h2 => by
        have := h (j + 1) (by omega) (by simp; omega)
        rw [List.drop_succ_cons] at this
        split
        · rw [lookup_append, this]
          have hne : (ls.drop j == l :: ls) = false := by
            simp only [beq_eq_false_iff_ne, ne_eq]
            intro hx
            have := congrArg List.length hx
            simp at this
            omega
          simp [List.lookup_cons, hne]
        · exact this) (by simp at hi; omega)
      have hunf : encLabels k d pos (l :: ls) = (labelWire l ++ (encLabels k (if pos ≤ 0x3fff ∧ k d (l :: ls) then d ++ [(l :: ls, pos)] else d) (pos + (l.length + 1)) ls).1,
          (encLabels k (if pos ≤ 0x3fff ∧ k d (l :: ls) then d ++ [(l :: ls, pos)] else d) (pos + (l.length + 1)) ls).2) := by
        conv => lhs; rw [encLabels]
        rw [h0]
      rw [hunf, hrec]
      by_cases hlt : i < ls.length
      · rw [if_pos hlt, if_pos (show i + 1 < (l :: ls).length by simpa using hlt)]
        simp only [List.take_succ_cons, List.drop_succ_cons, regs]
        rw [wire_cons]
        simp only [List.append_assoc, List.length_append, labelWire, List.length_cons, List.cons_append]
        rw [show pos + (l.length + 1) + (wire (ls.take i)).length = pos + (l.length + (wire (ls.take i)).length + 1) by omega]
      · rw [if_neg hlt, if_neg (show ¬ i + 1 < (l :: ls).length by simpa using hlt)]
        simp [nameWire, wire_cons, labelWire, regs]

theorem labels_ofLabels {ls : List Label} (hv : ValidName ls) : (ofLabels ls).labelList = ls := by
  unfold Name.labelList
  rw [Name.ofLabels_offsets, Name.ofLabels_raw, starts_length]
  simp only [List.length_append, List.length_singleton, Nat.add_sub_cancel]
  apply List.ext_getElem?
  intro i
  rw [List.getElem?_map]
  by_cases hi : i < ls.length
  · rw [List.getElem?_take_of_lt hi, starts_getElem? 0 (ls ++ [[]]) i (by simp; omega), List.getElem?_eq_getElem hi]
    simp only [Option.map_some, Nat.zero_add, Option.some.injEq]
    have hd : (wire (ls ++ [[]])).drop (wire ((ls ++ [[]]).take i)).length = labelWire ls[i] ++ wire ((ls ++ [[]]).drop (i + 1)) := by
      rw [wire_drop, List.drop_eq_getElem_cons (by simp; omega), List.getElem_append_left hi, wire_cons]; rfl
    generalize (wire ((ls ++ [[]]).take i)).length = o at hd
    have h0 : (wire (ls ++ [[]])).getD o 0 = UInt8.ofNat ls[i].length := by
      rw [List.getD_eq_getElem?_getD, ← Nat.add_zero o, ← List.getElem?_drop, hd]; simp [labelWire]
    rw [h0, u8_len (hv.1 _ (List.getElem_mem hi)).2, ← List.drop_drop, hd]
    simp [labelWire]
  · rw [List.getElem?_eq_none (by rw [List.length_take, starts_length]; omega), List.getElem?_eq_none (by omega)]
    rfl

/-! ## the table holds the dictionary -/

/-- the hash of a dictionary entry -/
def entryHash (e : List Label × Nat) : UInt32 := Render.hashBytes (nameWire e.1)

def dictItem (e : List Label × Nat) : OffSetItem :=
  OffSetItem.new (UInt8.ofNat (nameWire e.1).length) (UInt16.ofNat e.2) (entryHash e)

def inBucket (h : UInt32) (d : Dict) : Dict := d.filter fun e => entryHash e % 64 = h % 64

/-- the table holds the dictionary, and the names stand where it says -/
structure DictHas (r : Render) (g : Mem) (d : Dict) : Prop where
  items : ∀ h : UInt32, Render.bucketItems r h = (inBucket h d).map dictItem
  dec : ∀ e ∈ d, ValidName e.1 ∧ e.2 ≤ 0x3fff ∧ ∃ x, DecodesM g e.2 e.2 e.1 x

/-- and no name is in it twice -/
structure DictOK (r : Render) (g : Mem) (d : Dict) : Prop extends DictHas r g d where
  keys : (d.map (·.1)).Nodup

theorem inBucket_sharing (d : Dict) (ls : List Label) : inBucket (Render.hashBytes (nameWire ls)) d = d.sharing ls := by
  unfold inBucket entryHash Dict.sharing
  congr 1
  funext e
  rw [decide_eq_decide, ← UInt32.toNat_inj]
  simp [UInt32.toNat_mod]

theorem DictHas.le {r : Render} {g g' : Mem} {d : Dict} (h : DictHas r g d) (hg : g.le g') : DictHas r g' d :=
  ⟨h.items, fun e he => by obtain ⟨h1, h2, x, h3⟩ := h.dec e he; exact ⟨h1, h2, x, h3.le hg⟩⟩

theorem DictOK.le {r : Render} {g g' : Mem} {d : Dict} (h : DictOK r g d) (hg : g.le g') : DictOK r g' d := ⟨h.toDictHas.le hg, h.keys⟩

theorem DictHas.same {r r' : Render} {g : Mem} {d : Dict} (h : DictHas r g d) (h1 : r'.table = r.table) (h2 : r'.item_counts = r.item_counts) : DictHas r' g d :=
  ⟨fun x => by rw [← h.items x]; unfold Render.bucketItems; rw [h1, h2], h.dec⟩

theorem DictOK.same {r r' : Render} {g : Mem} {d : Dict} (h : DictOK r g d) (h1 : r'.table = r.table) (h2 : r'.item_counts = r.item_counts) : DictOK r' g d :=
  ⟨h.toDictHas.same h1 h2, h.keys⟩

theorem DictOK.new (backing : List UInt8) (g : Mem) : DictOK (Render.new backing) g [] := by
  refine ⟨⟨fun h => ?_, by simp⟩, by simp⟩
  have hb := Render.bucket_lt h
  unfold Render.bucketItems Render.new
  generalize (h % 64).toNat = b at hb
  simp only [List.getElem?_replicate, BUCKETS, if_pos hb, Option.getD_some, List.take_zero]
  rfl

theorem dictItem_pos {e : List Label × Nat} (h : e.2 ≤ 0x3fff) : (dictItem e).pos.toNat = e.2 := by
  unfold dictItem
  rw [OffSetItem.new_pos]
  apply UInt16.toNat_ofNat_of_lt'; simp only [UInt16.size]; omega

theorem dictItem_len {e : List Label × Nat} (h : ValidName e.1) : (dictItem e).len.toNat = (nameWire e.1).length := by
  unfold dictItem
  rw [OffSetItem.new_len, toNat_ofNat8 (by have := h.2; omega)]

theorem dictItem_hash (e : List Label × Nat) : (dictItem e).hash = entryHash e := by
  unfold dictItem; rw [OffSetItem.new_hash]

theorem DictHas.tagged {r : Render} {g : Mem} {d : Dict} (h : DictHas r g d) (hi : RInv r g) {S : List Label → Prop} (hS : ∀ e ∈ d, S e.1) : Tagged S r g := by
  intro b v c hv hc it hit
  have hb : b < 64 := by rw [← hi.tlen]; exact (List.getElem?_eq_some_iff.mp hv).1
  have hbb : ((UInt32.ofNat b) % 64).toNat = b := by
    rw [UInt32.toNat_mod, UInt32.toNat_ofNat_of_lt' (by simp only [UInt32.size]; omega)]
    show b % 64 = b
    omega
  have := h.items (UInt32.ofNat b)
  unfold Render.bucketItems at this
  rw [hbb, hv, hc] at this
  simp only [Option.getD_some] at this
  rw [this] at hit
  obtain ⟨e, he, rfl⟩ := List.mem_map.mp hit
  have hed := (List.mem_filter.mp he).1
  obtain ⟨h1, h2, x, h3⟩ := h.dec e hed
  exact ⟨e.1, x, hS e hed, h1, by rw [dictItem_pos h2]; exact h3, by rw [dictItem_pos h2]; exact h2, dictItem_len h1, dictItem_hash e⟩

/-- a new entry goes into the table while its bucket has room -/
theorem add_offset_room {r : Render} {g : Mem} (h : RInv r g) (hash : UInt32) (off : UInt16) (len : UInt8) (hroom : (Render.bucketItems r hash).length < 15)
    {r' : Render} (ha : Render.add_offset r hash off len = .ok r') (h' : UInt32) :
    Render.bucketItems r' h' = if hash % 64 = h' % 64 then Render.bucketItems r h' ++ [OffSetItem.new len off hash] else Render.bucketItems r h' := by
  rcases Render.add_offset_items h hash off len ha with ⟨_, h2⟩ | ⟨_, h1⟩
  · exact absurd hroom h2
  · rw [h1]
    by_cases hx : hash % 64 = h' % 64
    · rw [if_pos hx, if_pos hx.symm]
    · rw [if_neg hx, if_neg (fun hy => hx hy.symm)]

/-- and is dropped when the bucket is full -/
theorem add_offset_full {r : Render} {g : Mem} (h : RInv r g) (hash : UInt32) (off : UInt16) (len : UInt8) (hroom : ¬ (Render.bucketItems r hash).length < 15)
    {r' : Render} (ha : Render.add_offset r hash off len = .ok r') : r' = r := by
  rcases Render.add_offset_items h hash off len ha with ⟨h1, _⟩ | ⟨h1, _⟩
  · exact h1
  · exact absurd h1 hroom

theorem inBucket_append (h : UInt32) (a b : Dict) : inBucket h (a ++ b) = inBucket h a ++ inBucket h b := by
  unfold inBucket; exact List.filter_append _ _

theorem inBucket_single (h : UInt32) (e : List Label × Nat) : inBucket h [e] = if entryHash e % 64 = h % 64 then [e] else [] := by
  unfold inBucket
  by_cases hx : entryHash e % 64 = h % 64 <;> simp [hx]

/-- the last loop of `write_name` makes the entries of the reference encoder -/
theorem registerLoop_has {ls : List Label} (hv : ValidName ls) {g : Mem} {start : Nat}
    (k i : Nat) (r : Render) (h : RInv r g) (hh : Render.HashOK ls (i + k) r.label_hashes)
    (hcur : k + i ≤ ls.length + 1) (hik : ∀ j, i ≤ j → j < i + k → ∃ e, DecodesM g start (start + (wire (ls.take j)).length) (ls.drop j) e ∧
        (j < ls.length → g (start + (wire (ls.take j)).length) = some (UInt8.ofNat (ls[j]?.getD []).length)) ∧
        (j = ls.length → g (start + (wire (ls.take j)).length) = some 0))
    {d : Dict} (hd : DictHas r g d) {x : Res Unit} {r' : Render}
    (he : Render.registerLoop k i (start + (wire (ls.take i)).length) ((nameWire ls).length - (wire (ls.take i)).length) r = (x, r')) :
    DictHas r' g (regs Memory.table d (start + (wire (ls.take i)).length) k (ls.drop i)) := by
  induction k generalizing i r d with
  | zero =>
    simp only [Render.registerLoop, pure, Prod.mk.injEq] at he
    obtain ⟨_, rfl⟩ := he
    simpa [regs] using hd
  | succ k ih =>
    obtain ⟨ei, hde, hlt, heq⟩ := hik i (by omega) (by omega)
    have hcount := hv.count
    simp only [Render.registerLoop] at he
    rw [St.get_bind] at he
    by_cases hend : i = ls.length
    · rw [St.bind_ok (s' := r) (a := 0) (by rw [Render.at_mem h.buf h.mem (heq hend)]; rfl), if_pos rfl] at he
      simp only [pure, Prod.mk.injEq] at he
      obtain ⟨_, rfl⟩ := he
      rw [hend, List.drop_length]
      simpa [regs] using hd
    · have hi : i < ls.length := by omega
      have hli : ls[i]?.getD [] = ls[i] := by simp [hi]
      have hlab : ValidLabel ls[i] := hv.1 _ (List.getElem_mem hi)
      have hu := u8_len hlab.2
      have hdrop : ls.drop i = ls[i] :: ls.drop (i + 1) := List.drop_eq_getElem_cons hi
      rw [St.bind_ok (s' := r) (a := UInt8.ofNat (ls[i]).length) (by rw [Render.at_mem h.buf h.mem (hlt hi), hli]; rfl)] at he
      rw [if_neg (by intro h0; rw [h0] at hu; have := hlab.1; simp at hu; omega)] at he
      by_cases hbig : start + (wire (ls.take i)).length > MAX_COMPRESS_POINTER
      · rw [if_pos hbig] at he
        simp only [pure, Prod.mk.injEq] at he
        obtain ⟨_, rfl⟩ := he
        simp only [MAX_COMPRESS_POINTER] at hbig
        rw [regs_big _ _ (by omega)]
        exact hd
      · rw [if_neg hbig] at he
        simp only [MAX_COMPRESS_POINTER] at hbig
        have hhi : r.label_hashes[i]'(by rw [h.hlen]; omega) = Render.hashBytes (nameWire (ls.drop i)) := by
          have := hh i (by omega) hi
          rw [List.getElem?_eq_getElem (by rw [h.hlen]; omega)] at this
          simpa using this
        rw [St.bind_ok (s' := r) (a := r.label_hashes[i]'(by rw [h.hlen]; omega)) (by rw [idx_of_lt (by rw [h.hlen]; omega)]; rfl)] at he
        have htd : (nameWire ls).length = (wire (ls.take i)).length + (nameWire (ls.drop i)).length := by
          simp only [nameWire]
          have := congrArg List.length (wire_take_drop ls i)
          rw [List.length_append] at this
          rw [List.length_append, List.length_append]
          omega
        have hwl := hv.2
        have hpos : (UInt16.ofNat (start + (wire (ls.take i)).length)).toNat = start + (wire (ls.take i)).length := by
          apply UInt16.toNat_ofNat_of_lt'; simp only [UInt16.size]; omega
        have hvd : ValidName (ls.drop i) := hv.sublist (List.drop_sublist i ls)
        have hitem : ItemOK g (OffSetItem.new (UInt8.ofNat ((nameWire ls).length - (wire (ls.take i)).length))
            (UInt16.ofNat (start + (wire (ls.take i)).length)) (r.label_hashes[i]'(by rw [h.hlen]; omega))) := by
          refine ⟨ls.drop i, ei, hvd, ?_, ?_, ?_⟩
          · rw [OffSetItem.new_pos, hpos]; exact hde.mono (by omega)
          · rw [OffSetItem.new_pos, hpos]; omega
          · rw [OffSetItem.new_len, toNat_ofNat8 (by omega)]; omega
        obtain ⟨r1, ha, hr1, hbuf, hhs⟩ := Render.add_offset_spec h _ _ _ hitem
        rw [St.bind_ok (s' := r) (a := r1) (by rw [ha]; rfl), St.put_bind] at he
        rw [hu, St.bind_ok (s' := r1) (a := ls[i].length + 1) (by rw [cadd8_ok (by have := hlab.2; omega)]; rfl)] at he
        have hws : (wire (ls.take (i + 1))).length = (wire (ls.take i)).length + (ls[i].length + 1) := by
          rw [wire_take_succ _ _ hi]; omega
        have hle : (wire (ls.take (i + 1))).length ≤ (wire ls).length := wire_take_le ls (i + 1)
        have hnl : (nameWire ls).length = (wire ls).length + 1 := by simp [nameWire]
        rw [St.bind_ok (s' := r1) (a := (nameWire ls).length - (wire (ls.take i)).length - (ls[i].length + 1)) (by rw [csub_ok (by omega)]; rfl)] at he
        rw [show start + (wire (ls.take i)).length + (ls[i].length + 1) = start + (wire (ls.take (i + 1))).length by omega,
          show (nameWire ls).length - (wire (ls.take i)).length - (ls[i].length + 1) = (nameWire ls).length - (wire (ls.take (i + 1))).length by omega] at he
        have hregs : regs Memory.table d (start + (wire (ls.take i)).length) (k + 1) (ls.drop i) =
            regs Memory.table (if start + (wire (ls.take i)).length ≤ 0x3fff ∧ Memory.table d (ls.drop i) then d ++ [(ls.drop i, start + (wire (ls.take i)).length)] else d)
              (start + (wire (ls.take (i + 1))).length) k (ls.drop (i + 1)) := by
          conv => lhs; rw [hdrop]
          rw [regs, ← hdrop, hws, Nat.add_assoc]
        rw [hregs]
        have hb := hd.items (r.label_hashes[i]'(by rw [h.hlen]; omega))
        have hd1 : DictHas r1 g (if start + (wire (ls.take i)).length ≤ 0x3fff ∧ Memory.table d (ls.drop i) then d ++ [(ls.drop i, start + (wire (ls.take i)).length)] else d) := by
          by_cases hroom : (d.sharing (ls.drop i)).length < 15
          · rw [if_pos ⟨by omega, by simpa [Memory.table] using hroom⟩]
            refine ⟨fun hx => ?_, ?_⟩
            · have := add_offset_room h _ _ _ (by rw [hb, List.length_map, hhi, inBucket_sharing]; exact hroom) ha hx
              rw [this, hd.items hx, inBucket_append, inBucket_single, List.map_append, hhi]
              have hit : OffSetItem.new (UInt8.ofNat ((nameWire ls).length - (wire (ls.take i)).length)) (UInt16.ofNat (start + (wire (ls.take i)).length))
                  (Render.hashBytes (nameWire (ls.drop i))) = dictItem (ls.drop i, start + (wire (ls.take i)).length) := by
                unfold dictItem entryHash
                congr 2
                simp only
                omega
              rw [hit]
              show (if entryHash (ls.drop i, start + (wire (ls.take i)).length) % 64 = hx % 64 then _ else _) = _
              by_cases hc : entryHash (ls.drop i, start + (wire (ls.take i)).length) % 64 = hx % 64
              · rw [if_pos hc, if_pos hc]; rfl
              · rw [if_neg hc, if_neg hc]; simp
            · intro e he'
              rcases List.mem_append.mp he' with he' | he'
              · exact hd.dec e he'
              · rw [List.mem_singleton] at he'
                subst he'
                exact ⟨hvd, by simp only; omega, ei, hde.mono (by simp only; omega)⟩
          · rw [if_neg (fun hx => hroom (by simpa [Memory.table] using hx.2))]
            rw [add_offset_full h _ _ _ (by rw [hb, List.length_map, hhi, inBucket_sharing]; exact hroom) ha]
            exact hd
        refine ih (i + 1) r1 hr1 (by rw [hhs, show i + 1 + k = i + (k + 1) by omega]; exact hh) (by omega)
          (fun j h1 h2 => hik j (by omega) (by omega)) hd1 he

/-- the entries for the labels of a name that is not in the dictionary, nor its parents -/
theorem regs_nodup (k : Memory) {d : Dict} (hd : (d.map (·.1)).Nodup) (pos n : Nat) (ls : List Label) (hnew : ∀ j, j < n → j < ls.length → ∀ e ∈ d, e.1 ≠ ls.drop j) :
    ((regs k d pos n ls).map (·.1)).Nodup := by
  induction n generalizing d pos ls with
  | zero => exact hd
  | succ n ih => cases ls with
    | nil => exact hd
    | cons l ls =>
      rw [regs]
      split
      · refine ih ?_ _ _ fun j h1 h2 e he => ?_
        · rw [List.map_append, List.nodup_append]
          refine ⟨hd, by simp, fun a ha' b hb' => ?_⟩
          obtain ⟨e, he', rfl⟩ := List.mem_map.mp ha'
          simp only [List.map_cons, List.map_nil, List.mem_singleton] at hb'
          subst hb'
          exact hnew 0 (by omega) (by simp) e he'
        · rcases List.mem_append.mp he with he | he
          · have := hnew (j + 1) (by omega) (by simp; omega) e he
            rwa [List.drop_succ_cons] at this
          · rw [List.mem_singleton] at he
            subst he
            intro hx
            have := congrArg List.length hx
            simp at this
            omega
      · refine ih hd _ _ fun j h1 h2 e he => ?_
        have := hnew (j + 1) (by omega) (by simp; omega) e he
        rwa [List.drop_succ_cons] at this

theorem lookup_mem {α β : Type} [BEq α] [LawfulBEq α] {d : List (α × β)} {k : α} {v : β} (h : d.lookup k = some v) : (k, v) ∈ d := by
  induction d with
  | nil => simp at h
  | cons x d ih =>
    obtain ⟨a, b⟩ := x
    rw [List.lookup_cons] at h
    by_cases hk : k = a
    · subst hk
      simp only [BEq.rfl, Option.some.injEq] at h
      subst h; simp
    · simp only [beq_false_of_ne hk] at h
      exact List.mem_cons_of_mem _ (ih h)

theorem lookup_of_mem {α β : Type} [BEq α] [LawfulBEq α] {d : List (α × β)} (hn : (d.map (·.1)).Nodup) {k : α} {v : β} (h : (k, v) ∈ d) : d.lookup k = some v := by
  induction d with
  | nil => simp at h
  | cons x d ih =>
    obtain ⟨a, b⟩ := x
    rw [List.lookup_cons]
    rw [List.map_cons, List.nodup_cons] at hn
    rcases List.mem_cons.mp h with h1 | h1
    · simp only [Prod.mk.injEq] at h1
      obtain ⟨rfl, rfl⟩ := h1
      simp
    · have hne : k ≠ a := by
        intro hx
        exact hn.1 (List.mem_map.mpr ⟨_, h1, hx⟩)
      simp only [beq_false_of_ne hne]
      exact ih hn.2 h1

theorem lookup_none {α β : Type} [BEq α] [LawfulBEq α] {d : List (α × β)} {k : α} (h : d.lookup k = none) : ∀ e ∈ d, e.1 ≠ k := by
  induction d with
  | nil => simp
  | cons x d ih =>
    obtain ⟨a, b⟩ := x
    rw [List.lookup_cons] at h
    by_cases hk : k = a
    · subst hk; simp at h
    · simp only [beq_false_of_ne hk] at h
      intro e he
      rcases List.mem_cons.mp he with rfl | he
      · exact fun hx => hk hx.symm
      · exact ih h e he

/-- `write_name` writes what the reference encoder writes -/
theorem write_name_dict {S : List Label → Prop} (hS : NoClash S) {ls : List Label} (hv : ValidName ls) (hls : ∀ i, i < ls.length → S (ls.drop i))
    {r : Render} {g : Mem} {d : Dict} (h : RInv r g) (hd : DictOK r g d) (hdS : ∀ e ∈ d, S e.1) :
    ∃ lu off, Render.ScanOK g ls true lu off ∧ (∀ j, j < lu → j < ls.length → d.lookup (ls.drop j) = none) ∧
      (lu < ls.length → d.lookup (ls.drop lu) = some off.toNat) ∧ (encLabels Memory.table d r.buffer.len ls).1 = Render.emitted ls lu off ∧
      (r.buffer.len + (encLabels Memory.table d r.buffer.len ls).1.length ≤ r.buffer.capacity →
        ∃ r', Render.write_name (ofLabels ls) true r = (.ok (), r') ∧ Wrote r r' g (encLabels Memory.table d r.buffer.len ls).1 ∧
          DictOK r' (g.ext r.buffer.len (encLabels Memory.table d r.buffer.len ls).1) (encLabels Memory.table d r.buffer.len ls).2) ∧
      (¬ r.buffer.len + (encLabels Memory.table d r.buffer.len ls).1.length ≤ r.buffer.capacity →
        (Render.write_name (ofLabels ls) true r).1 = .err ∧
        (Render.write_name (ofLabels ls) true r).2.buffer = r.buffer.append (Render.leftover ls lu off (r.buffer.capacity - r.buffer.len))) := by
  obtain ⟨lu, off, k1, k2, k3, k4, k5⟩ := Render.write_name_exact hS hv hls true h (hd.tagged h hdS)
  have hnone : ∀ j, j < lu → j < ls.length → d.lookup (ls.drop j) = none := by
    intro j h1 h2
    cases hl : d.lookup (ls.drop j) with
    | none => rfl
    | some p =>
      exfalso
      have hm := lookup_mem hl
      refine k2 rfl j h1 h2 ⟨dictItem (ls.drop j, p), ?_, dictItem_hash _, ?_⟩
      · rw [hd.items]
        refine List.mem_map.mpr ⟨_, List.mem_filter.mpr ⟨hm, ?_⟩, rfl⟩
        simp [entryHash]
      · unfold dictItem; rw [OffSetItem.new_len]
  have hlook0 : lu < ls.length → d.lookup (ls.drop lu) = some off.toNat := by
    intro a2
    rcases k1 with ⟨_, a⟩ | ⟨_, a1, _, a3, e, a4⟩
    · omega
    · obtain ⟨hash, it, hit, hp⟩ := (k3 a2).1
      rw [hd.items] at hit
      obtain ⟨en, hen, rfl⟩ := List.mem_map.mp hit
      have hmem := (List.mem_filter.mp hen).1
      obtain ⟨y1, y2, x, y3⟩ := hd.dec en hmem
      have hpo : off.toNat = en.2 := by rw [← hp, dictItem_pos y2]
      rw [← hpo] at y3
      have hkey := ((y3.decodes h.mem).det (a4.decodes h.mem)).1
      exact lookup_of_mem hd.keys (by rw [← hkey, hpo]; exact hmem)
  have key : encLabels Memory.table d r.buffer.len ls = (Render.emitted ls lu off, regs Memory.table d r.buffer.len lu ls) := by
    rcases k1 with ⟨a1, a2⟩ | ⟨_, a1, a2, a3, e, a4⟩
    · rw [encLabels_spell _ lu d _ ls hnone (Or.inr a2), if_neg (by omega)]
      simp only [Render.emitted, if_pos a1]
    · rw [encLabels_spell _ lu d _ ls hnone (Or.inl a2), if_pos a2]
      have hlook : (regs Memory.table d r.buffer.len lu ls).lookup (ls.drop lu) = some off.toNat := by
        obtain ⟨t, ht⟩ := regs_grows Memory.table d r.buffer.len lu ls
        rw [← ht, lookup_append]
        rw [hlook0 a2]; rfl
      have hdrop : ls.drop lu = ls[lu] :: ls.drop (lu + 1) := List.drop_eq_getElem_cons a2
      rw [hdrop] at hlook ⊢
      rw [encLabels, hlook]
      simp only [Render.emitted, if_neg a1, pointerTo]
  rw [key]
  refine ⟨lu, off, k1, hnone, hlook0, rfl, fun hfit => ?_, k5⟩
  obtain ⟨r', e1, e2, e3, r1, f1, f2, f3, f4, f5, f6⟩ := k4 hfit
  refine ⟨r', e1, e2, ?_⟩
  have hlu : lu ≤ ls.length + 1 := by rcases k1 with ⟨_, h⟩ | ⟨_, _, h, _⟩ <;> omega
  have hreg := registerLoop_has hv (start := r.buffer.len) lu 0 r1 f1 (by simpa using f4) (by omega) (fun j _ hj => f6 j (by omega))
    (d := d) ((hd.le (Render.RInv.append h hfit).2.1).same f2 f3).toDictHas (x := .ok ()) (r' := r')
  simp only [List.take_zero, wire_nil, List.length_nil, Nat.add_zero, Nat.sub_zero, List.drop_zero] at hreg
  exact ⟨hreg f5, regs_nodup _ hd.keys _ _ _ fun j h2 h3 => lookup_none (hnone j h2 h3)⟩

end R53
