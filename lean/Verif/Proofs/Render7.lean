import Verif.Proofs.Render6
/-!
# What the compression table knows

Every name written below 0x4000 is in the table, and so are its parents, unless its bucket is full.
-/
namespace R53
namespace Render
open Name (ofLabels)

/-- an entry for the name -/
def HasItem (r : Render) (ls : List Label) : Prop :=
  ∃ it ∈ bucketItems r (hashBytes (nameWire ls)), it.hash = hashBytes (nameWire ls) ∧ it.len = UInt8.ofNat (nameWire ls).length

/-- the bucket of a hash has a free place -/
def NotFull (r : Render) (x : UInt32) : Prop := (bucketItems r x).length < 15

/-- what `add_offset` does to the buckets -/
theorem add_offset_items {r : Render} {g : Mem} (h : RInv r g) (hash : UInt32) (off : UInt16) (len : UInt8) {r' : Render}
    (ha : add_offset r hash off len = .ok r') :
    (r' = r ∧ ¬ NotFull r hash) ∨
    (NotFull r hash ∧
      ∀ h', bucketItems r' h' = if h' % 64 = hash % 64 then bucketItems r h' ++ [OffSetItem.new len off hash] else bucketItems r h') := by
  unfold add_offset at ha
  have hb := bucket_lt hash
  have ht : (hash % 64).toNat < r.table.length := by rw [h.tlen]; exact hb
  have hc : (hash % 64).toNat < r.item_counts.length := by rw [h.clen]; exact hb
  simp only [idx_of_lt ht, idx_of_lt hc, Res.bind_ok] at ha
  have hrow := h.rows _ (List.getElem_mem ht)
  have hcnt := h.counts _ (List.getElem_mem hc)
  have hnf : NotFull r hash ↔ r.item_counts[(hash % 64).toNat] < 15 := by
    unfold NotFull bucketItems
    rw [List.getElem?_eq_getElem ht, List.getElem?_eq_getElem hc]
    simp only [Option.getD_some, List.length_take]
    omega
  by_cases hfull : r.item_counts[(hash % 64).toNat] + 1 = RESERVED_ITEMS
  · rw [if_pos hfull] at ha
    simp only [Res.pure_eq, Res.ok.injEq] at ha
    refine Or.inl ⟨ha.symm, fun hn => ?_⟩
    have := hnf.mp hn
    simp only [RESERVED_ITEMS] at hfull
    omega
  · rw [if_neg hfull] at ha
    simp only [RESERVED_ITEMS] at hfull
    rw [idx_of_lt (by omega), Res.bind_ok] at ha
    simp only [Res.pure_eq, Res.ok.injEq] at ha
    subst ha
    refine Or.inr ⟨hnf.mpr (by omega), fun h' => ?_⟩
    unfold bucketItems
    simp only
    by_cases he : h' % 64 = hash % 64
    · rw [if_pos he, he, List.getElem?_set_self ht, List.getElem?_set_self hc, List.getElem?_eq_getElem ht, List.getElem?_eq_getElem hc]
      simp only [Option.getD_some]
      rw [take_succ_last _ _ (by rw [List.length_set]; omega), List.take_set_of_le (by omega), List.getElem_set_self]
    · have hne : (hash % 64).toNat ≠ (h' % 64).toNat := fun hx => he (UInt32.toNat_inj.mp hx.symm)
      rw [if_neg he, List.getElem?_set_ne hne, List.getElem?_set_ne hne]

/-- the buckets only got longer -/
structure Grown (r r' : Render) : Prop where
  items : ∀ h, ∃ extra, bucketItems r' h = bucketItems r h ++ extra

theorem Grown.refl (r : Render) : Grown r r := ⟨fun h => ⟨[], by simp⟩⟩
theorem Grown.trans {a b c : Render} (h1 : Grown a b) (h2 : Grown b c) : Grown a c :=
  ⟨fun h => by
    obtain ⟨x, hx⟩ := h1.items h
    obtain ⟨y, hy⟩ := h2.items h
    exact ⟨x ++ y, by rw [hy, hx, List.append_assoc]⟩⟩

theorem Grown.full {r r' : Render} (h : Grown r r') {x : UInt32} (hn : NotFull r' x) : NotFull r x := by
  obtain ⟨y, hy⟩ := h.items x
  unfold NotFull at hn ⊢
  rw [hy, List.length_append] at hn
  omega

theorem Grown.has {r r' : Render} (h : Grown r r') {ls : List Label} (hi : HasItem r ls) : HasItem r' ls := by
  obtain ⟨it, h1, h2⟩ := hi
  obtain ⟨x, hx⟩ := h.items (hashBytes (nameWire ls))
  exact ⟨it, by rw [hx]; exact List.mem_append_left _ h1, h2⟩

/-- how many of the parents of a name with the numbers from `i` on, `n` of them, are in a bucket -/
def crowd (ls : List Label) (i n : Nat) (x : UInt32) : Nat := (List.range' i n).countP fun j => hashBytes (nameWire (ls.drop j)) % 64 = x % 64

theorem crowd_succ (ls : List Label) (i n : Nat) (x : UInt32) :
    crowd ls i (n + 1) x = crowd ls (i + 1) n x + if hashBytes (nameWire (ls.drop i)) % 64 = x % 64 then 1 else 0 := by
  unfold crowd
  rw [List.range'_succ, List.countP_cons]
  simp

/-- entries of one bucket have different lengths, all above `n` -/
def Distinct (r : Render) (n : Nat) : Prop :=
  ∀ h, (bucketItems r h).Pairwise (fun a b => a.len ≠ b.len) ∧ ∀ it ∈ bucketItems r h, n < it.len.toNat

theorem Distinct.mono {r : Render} {n m : Nat} (h : Distinct r n) (hm : m ≤ n) : Distinct r m :=
  fun x => ⟨(h x).1, fun it hi => by have := (h x).2 it hi; omega⟩

theorem registerLoop_items {ls : List Label} (hv : ValidName ls) {g : Mem} {start : Nat}
    (k i : Nat) (r : Render) (h : RInv r g) (hh : HashOK ls (i + k) r.label_hashes)
    (hcur : k + i ≤ ls.length + 1) (hik : ∀ j, i ≤ j → j < i + k → ∃ e, DecodesM g start (start + (wire (ls.take j)).length) (ls.drop j) e ∧
        (j < ls.length → g (start + (wire (ls.take j)).length) = some (UInt8.ofNat (ls[j]?.getD []).length)) ∧
        (j = ls.length → g (start + (wire (ls.take j)).length) = some 0))
    {x : Res Unit} {r' : Render}
    (he : registerLoop k i (start + (wire (ls.take i)).length) ((nameWire ls).length - (wire (ls.take i)).length) r = (x, r')) :
    Grown r r' ∧ (∀ x, (bucketItems r' x).length ≤ (bucketItems r x).length + crowd ls i (min k (ls.length - i)) x) ∧
    (∀ j, i ≤ j → j < i + k → j < ls.length → start + (wire (ls.take j)).length ≤ 0x3fff → NotFull r' (hashBytes (nameWire (ls.drop j))) →
      HasItem r' (ls.drop j)) ∧
    (Distinct r ((nameWire ls).length - (wire (ls.take i)).length) → Distinct r' 0) ∧
    (NotFull r (hashBytes (nameWire (ls.drop i))) → 0 < k → i < ls.length → start + (wire (ls.take i)).length ≤ 0x3fff → HasItem r' (ls.drop i)) := by
  induction k generalizing i r with
  | zero =>
    simp only [registerLoop, pure, Prod.mk.injEq] at he
    obtain ⟨_, rfl⟩ := he
    exact ⟨Grown.refl _, fun _ => by omega, fun j h1 h2 => by omega, fun hd => hd.mono (by omega), fun _ h0 => by omega⟩
  | succ k ih =>
    obtain ⟨ei, hd, hlt, heq⟩ := hik i (by omega) (by omega)
    have hcount := hv.count
    simp only [registerLoop] at he
    rw [St.get_bind] at he
    by_cases hend : i = ls.length
    · rw [St.bind_ok (s' := r) (a := 0) (by rw [at_mem h.buf h.mem (heq hend)]; rfl), if_pos rfl] at he
      simp only [pure, Prod.mk.injEq] at he
      obtain ⟨_, rfl⟩ := he
      exact ⟨Grown.refl _, fun _ => by omega, fun j h1 h2 h3 => by omega, fun hd => hd.mono (by omega), fun _ _ h0 => by omega⟩
    · have hi : i < ls.length := by omega
      have hli : ls[i]?.getD [] = ls[i] := by simp [hi]
      have hlab : ValidLabel ls[i] := hv.1 _ (List.getElem_mem hi)
      have hu := u8_len hlab.2
      rw [St.bind_ok (s' := r) (a := UInt8.ofNat (ls[i]).length) (by rw [at_mem h.buf h.mem (hlt hi), hli]; rfl)] at he
      rw [if_neg (by intro h0; rw [h0] at hu; have := hlab.1; simp at hu; omega)] at he
      by_cases hbig : start + (wire (ls.take i)).length > MAX_COMPRESS_POINTER
      · rw [if_pos hbig] at he
        simp only [pure, Prod.mk.injEq] at he
        obtain ⟨_, rfl⟩ := he
        simp only [MAX_COMPRESS_POINTER] at hbig
        refine ⟨Grown.refl _, fun _ => by omega, fun j h1 h2 h3 h4 => ?_, fun hd => hd.mono (by omega), fun _ _ _ h0 => by omega⟩
        exfalso
        have : (wire (ls.take i)).length ≤ (wire (ls.take j)).length := by
          have := wire_take_le (ls.take j) i
          rw [List.take_take, Nat.min_eq_left h1] at this
          exact this
        omega
      · rw [if_neg hbig] at he
        simp only [MAX_COMPRESS_POINTER] at hbig
        have hhi : r.label_hashes[i]'(by rw [h.hlen]; omega) = hashBytes (nameWire (ls.drop i)) := by
          have := hh i (by omega) hi
          rw [List.getElem?_eq_getElem (by rw [h.hlen]; omega)] at this
          simpa using this
        rw [St.bind_ok (s' := r) (a := r.label_hashes[i]'(by rw [h.hlen]; omega)) (by rw [idx_of_lt (by rw [h.hlen]; omega)]; rfl)] at he
        have htd : (nameWire ls).length = (wire (ls.take i)).length + (nameWire (ls.drop i)).length := by
          simp only [nameWire]
          have := congrArg List.length (wire_take_drop ls i)
          rw [List.length_append] at this
          rw [List.length_append, List.length_append]
          omega
        have hwl := hv.2
        have hpos : (UInt16.ofNat (start + (wire (ls.take i)).length)).toNat = start + (wire (ls.take i)).length := by
          apply UInt16.toNat_ofNat_of_lt'; simp only [UInt16.size]; omega
        have hvd : ValidName (ls.drop i) := hv.sublist (List.drop_sublist i ls)
        have hitem : ItemOK g (OffSetItem.new (UInt8.ofNat ((nameWire ls).length - (wire (ls.take i)).length))
            (UInt16.ofNat (start + (wire (ls.take i)).length)) (r.label_hashes[i]'(by rw [h.hlen]; omega))) := by
          refine ⟨ls.drop i, ei, hvd, ?_, ?_, ?_⟩
          · rw [OffSetItem.new_pos, hpos]; exact hd.mono (by omega)
          · rw [OffSetItem.new_pos, hpos]; omega
          · rw [OffSetItem.new_len, toNat_ofNat8 (by omega)]; omega
        obtain ⟨r1, ha, hr1, hbuf, hhs⟩ := add_offset_spec h _ _ _ hitem
        have hai := add_offset_items h _ _ _ ha
        rw [St.bind_ok (s' := r) (a := r1) (by rw [ha]; rfl), St.put_bind] at he
        rw [hu, St.bind_ok (s' := r1) (a := ls[i].length + 1) (by rw [cadd8_ok (by have := hlab.2; omega)]; rfl)] at he
        have hws : (wire (ls.take (i + 1))).length = (wire (ls.take i)).length + (ls[i].length + 1) := by
          rw [wire_take_succ _ _ hi]; omega
        have hle : (wire (ls.take (i + 1))).length ≤ (wire ls).length := wire_take_le ls (i + 1)
        have hnl : (nameWire ls).length = (wire ls).length + 1 := by simp [nameWire]
        rw [St.bind_ok (s' := r1) (a := (nameWire ls).length - (wire (ls.take i)).length - (ls[i].length + 1)) (by rw [csub_ok (by omega)]; rfl)] at he
        rw [show start + (wire (ls.take i)).length + (ls[i].length + 1) = start + (wire (ls.take (i + 1))).length by omega,
          show (nameWire ls).length - (wire (ls.take i)).length - (ls[i].length + 1) = (nameWire ls).length - (wire (ls.take (i + 1))).length by omega] at he
        obtain ⟨k1, k2, k3, k4, _⟩ := ih (i + 1) r1 hr1 (by rw [hhs, show i + 1 + k = i + (k + 1) by omega]; exact hh) (by omega)
          (fun j h1 h2 => hik j (by omega) (by omega)) he
        have hlen8 : (OffSetItem.new (UInt8.ofNat ((nameWire ls).length - (wire (ls.take i)).length))
            (UInt16.ofNat (start + (wire (ls.take i)).length)) (r.label_hashes[i]'(by rw [h.hlen]; omega))).len =
              UInt8.ofNat ((nameWire ls).length - (wire (ls.take i)).length) := OffSetItem.new_len _ _ _
        have hhash : (OffSetItem.new (UInt8.ofNat ((nameWire ls).length - (wire (ls.take i)).length))
            (UInt16.ofNat (start + (wire (ls.take i)).length)) (r.label_hashes[i]'(by rw [h.hlen]; omega))).hash = hashBytes (nameWire (ls.drop i)) := by
          rw [OffSetItem.new_hash, hhi]
        rw [hhi] at hai hlen8 hhash
        generalize OffSetItem.new (UInt8.ofNat ((nameWire ls).length - (wire (ls.take i)).length))
            (UInt16.ofNat (start + (wire (ls.take i)).length)) (hashBytes (nameWire (ls.drop i))) = item at hai hlen8 hhash
        have hgr : Grown r r1 := by
          rcases hai with ⟨rfl, _⟩ | ⟨_, a1⟩
          · exact Grown.refl _
          · refine ⟨fun x => ?_⟩
            rw [a1]
            split
            · exact ⟨_, rfl⟩
            · exact ⟨[], by simp⟩
        refine ⟨hgr.trans k1, fun x => ?_, fun j j1 j2 j3 j4 hnf => ?_, fun hdis => k4 fun x => ?_, fun hnf _ _ _ => ?_⟩
        · rw [show min (k + 1) (ls.length - i) = min k (ls.length - (i + 1)) + 1 by omega, crowd_succ]
          have hk := k2 x
          rcases hai with ⟨rfl, _⟩ | ⟨_, a1⟩
          · omega
          · rw [a1] at hk
            by_cases he : x % 64 = hashBytes (nameWire (ls.drop i)) % 64
            · rw [if_pos he, List.length_append, List.length_singleton] at hk
              rw [if_pos he.symm]; omega
            · rw [if_neg he] at hk; omega
        · by_cases hj : j = i
          · subst hj
            rcases hai with ⟨rfl, hn⟩ | ⟨_, a1⟩
            · exact absurd (k1.full hnf) hn
            · refine k1.has ⟨item, by rw [a1, if_pos rfl]; simp, hhash, ?_⟩
              rw [hlen8]; congr 1; omega
          · exact k3 j (by omega) (by omega) j3 j4 hnf
        · rcases hai with ⟨rfl, _⟩ | ⟨_, a1⟩
          · exact (hdis.mono (by omega)) x
          · rw [a1]
            have hx := hdis x
            have hl8 : item.len.toNat = (nameWire ls).length - (wire (ls.take i)).length := by
              rw [hlen8]; exact toNat_ofNat8 (by omega)
            split
            · refine ⟨List.pairwise_append.mpr ⟨hx.1, by simp, fun a ha b hb => ?_⟩, fun it hit => ?_⟩
              · rw [List.mem_singleton] at hb
                subst hb
                intro hab
                have := hx.2 a ha
                rw [hab] at this
                omega
              · rcases List.mem_append.mp hit with hit | hit
                · have := hx.2 it hit; omega
                · rw [List.mem_singleton] at hit; subst hit; omega
            · exact ⟨hx.1, fun it hit => by have := hx.2 it hit; omega⟩
        · rcases hai with ⟨rfl, hn⟩ | ⟨_, a1⟩
          · exact absurd hnf hn
          · refine k1.has ⟨item, by rw [a1, if_pos rfl]; simp, hhash, ?_⟩
            rw [hlen8]; congr 1; omega

theorem _root_.R53.Tagged.weaken {S S' : List Label → Prop} (hs : ∀ x, S x → S' x) {r : Render} {g : Mem} (h : Tagged S r g) : Tagged S' r g := by
  intro b v c hv hc it hit
  obtain ⟨ls, e, h0, h1⟩ := h b v c hv hc it hit
  exact ⟨ls, e, hs _ h0, h1⟩

/-- `write_name` and the table -/
theorem write_name_table {S0 S : List Label → Prop} (hS : ∀ x, S0 x → S x) {ls : List Label} (hv : ValidName ls) (hls : ∀ i, i < ls.length → S (ls.drop i))
    (compress : Bool) {r : Render} {g : Mem} (h : RInv r g) (ht : Tagged S0 r g) :
    (∃ lu off r', write_name (ofLabels ls) compress r = (.ok (), r') ∧ ScanOK g ls compress lu off ∧ Wrote r r' g (emitted ls lu off) ∧
      (lu < ls.length → S0 (ls.drop lu)) ∧ Tagged S r' (g.ext r.buffer.len (emitted ls lu off)) ∧ Grown r r' ∧
      (∀ x, (bucketItems r' x).length ≤ (bucketItems r x).length + crowd ls 0 (min lu ls.length) x) ∧
      (∀ j, j < lu → j < ls.length → r.buffer.len + (wire (ls.take j)).length ≤ 0x3fff → NotFull r' (hashBytes (nameWire (ls.drop j))) →
        HasItem r' (ls.drop j)) ∧
      (Distinct r (nameWire ls).length → Distinct r' 0) ∧
      (NotFull r (hashBytes (nameWire ls)) → 0 < lu → 0 < ls.length → r.buffer.len ≤ 0x3fff → HasItem r' ls)) ∨
    (∃ r', write_name (ofLabels ls) compress r = (.err, r') ∧ r'.table = r.table ∧ r'.item_counts = r.item_counts) := by
  unfold write_name
  obtain ⟨hs, h1, h2, h3⟩ := scanLoop_spec hv compress g (ofLabels ls).label_count 0 0 r h (by rw [Name.ofLabels_count])
    (by rw [Name.ofLabels_count]; omega) rfl
  have hmem := fun lu' off r' he => scanLoop_mem hv compress g (ofLabels ls).label_count 0 0 r h (by rw [Name.ofLabels_count])
    (by rw [Name.ofLabels_count]; omega) rfl (fun i hi => by omega) (lu' := lu') (off := off) (r' := r') he
  generalize hres : scanLoop (ofLabels ls) compress (ofLabels ls).label_count 0 0 r = res at h2 h3 hmem
  obtain ⟨x, r1⟩ := res
  simp only at h2 h3
  subst h2
  have hinv1 : RInv { r with label_hashes := hs } g := RInv.setHashes h h1
  have ht1 : Tagged S { r with label_hashes := hs } g := (ht.weaken hS).same rfl rfl
  rcases h3 with ⟨h3, _⟩ | ⟨lu, off, h3, hsc⟩
  · right
    rw [h3] at hres
    exact ⟨{ r with label_hashes := hs }, by rw [St.bind_err hres], rfl, rfl⟩
  · rw [h3] at hmem hres
    obtain ⟨k2, k3⟩ := hmem lu off _ rfl
    simp only at k2
    rw [St.bind_ok hres]
    simp only
    rw [St.get_bind]
    have hem := emitName_spec compress hsc { r with label_hashes := hs } h.buf
    simp only at hem
    by_cases hfit : r.buffer.len + (emitted ls lu off).length ≤ r.buffer.capacity
    · left
      rw [St.bind_ok (hem.1 hfit)]
      obtain ⟨hi2, hle, hcont⟩ := RInv.append hinv1 hfit
      simp only at hi2 hle hcont
      have hdec := fun j hj => emitted_decodes hv hsc hinv1 j hj
      simp only at hdec
      have hlu : lu ≤ ls.length + 1 := by rcases hsc with ⟨_, h⟩ | ⟨_, _, h, _⟩ <;> omega
      have hik : ∀ j, 0 ≤ j → j < 0 + lu → ∃ e, DecodesM (g.ext r.buffer.len (emitted ls lu off)) r.buffer.len (r.buffer.len + (wire (ls.take j)).length) (ls.drop j) e ∧
          (j < ls.length → g.ext r.buffer.len (emitted ls lu off) (r.buffer.len + (wire (ls.take j)).length) = some (UInt8.ofNat (ls[j]?.getD []).length)) ∧
          (j = ls.length → g.ext r.buffer.len (emitted ls lu off) (r.buffer.len + (wire (ls.take j)).length) = some 0) := fun j _ hj => by
        have := hdec j (Or.inl (by omega))
        exact ⟨_, this.1, this.2.1 (by omega), this.2.2 (by omega)⟩
      obtain ⟨r2, hr2, hr2i, hr2b⟩ := registerLoop_spec (e := 0) hv (start := r.buffer.len) lu 0 _ hi2 (by omega) hik
      have ht2 := registerLoop_tag hv hls (start := r.buffer.len) lu 0 _ hi2 ((ht1.le hle).same (r' := { r with label_hashes := hs, buffer := r.buffer.append (emitted ls lu off) }) rfl rfl)
        (by simpa using k2) (by omega) hik
      obtain ⟨i1, i2, i3, i4, i5⟩ := registerLoop_items hv (start := r.buffer.len) lu 0 _ hi2 (by simpa using k2) (by omega) hik hr2
      have hz : (wire (ls.take 0)).length = 0 := by simp
      rw [hz, Nat.add_zero, Nat.sub_zero] at hr2 ht2
      rw [hr2] at ht2
      rw [hz, Nat.sub_zero] at i4
      refine ⟨lu, off, r2, ?_, hsc, ⟨hfit, hr2b, hr2i⟩, ?_, ht2, ⟨i1.items⟩, fun x => by have := i2 x; rw [Nat.sub_zero] at this; exact this, fun j hj hj' hp hn => i3 j (by omega) (by omega) hj' hp hn, i4,
        fun hn h0 h0' hp => by have := i5 (by rw [List.drop_zero]; exact hn) h0 h0' (by simpa using hp); rwa [List.drop_zero] at this⟩
      · rw [← hr2]
        congr 1
        rw [Name.len, Name.ofLabels_raw, nameWire_eq]
      · intro hlt
        rcases hsc with ⟨_, hx⟩ | ⟨_, hno, _, _, e, hdx⟩
        · omega
        · obtain ⟨hash, it, hit, hp⟩ := k3.resolve_left hno
          obtain ⟨y, e', y0, y1, y2, _⟩ := bucketItems_tag h ht hash it hit
          rw [hp] at y2
          have := (y2.decodes h.mem).det (hdx.decodes h.mem)
          rw [← this.1]; exact y0
    · right
      obtain ⟨d, hdl, hd⟩ := hem.2 hfit
      rcases hd with hd | hd
      · exact ⟨{ r with label_hashes := hs, buffer := r.buffer.append d }, by rw [St.bind_err hd], rfl, rfl⟩
      · exact ⟨{ r with label_hashes := hs }, by rw [St.bind_err hd], rfl, rfl⟩

/-- a table whose entries of one bucket differ in length is searched without failure, for any name -/
theorem findItems_distinct {S : List Label → Prop} {ob : OutBuf} (hb : ob.Inv) {g : Mem} (hm : g.le (memOf ob.contents))
    (items : List OffSetItem) (hi : ∀ it ∈ items, ItemTag S g it) (hp : items.Pairwise (fun a b => a.len ≠ b.len)) {ls : List Label} (hv : ValidName ls) :
    ∃ off nb', findItems ob (hashBytes (nameWire ls)) items (InBuf.new (nameWire ls)) = (.ok off, nb') := by
  have rest : ∀ (items : List OffSetItem) (nb : InBuf), nb.data = nameWire ls → (∀ it ∈ items, it.len ≠ UInt8.ofNat (nameWire ls).length) →
      findItems ob (hashBytes (nameWire ls)) items nb = (.ok NO_OFFSET, nb) := by
    intro items nb hnb
    induction items with
    | nil => intro _; rfl
    | cons it items ih =>
      intro hne
      simp only [findItems]
      have hcmp : compareItem ob (hashBytes (nameWire ls)) it nb = (.ok false, nb) := by
        unfold compareItem
        rw [if_pos]
        right
        rw [InBuf.len, hnb]; exact hne it (by simp)
      rw [St.bind_ok hcmp, if_neg (by simp)]
      exact ih fun x hx => hne x (by simp [hx])
  induction items with
  | nil => exact ⟨NO_OFFSET, _, rfl⟩
  | cons it items ih =>
    rw [List.pairwise_cons] at hp
    have hc := compareItem_exact (S := S) hb hm (hi it (by simp)) hv
    simp only [findItems]
    by_cases ht : it.hash = hashBytes (nameWire ls) ∧ it.len = UInt8.ofNat (nameWire ls).length
    · obtain ⟨x, nb', a1, a2, a3, a4, a5⟩ := hc.1 ht
      rw [St.bind_ok a4]
      by_cases hx : ls = x
      · rw [if_pos (by simpa using hx)]; exact ⟨it.pos, nb', rfl⟩
      · rw [if_neg (by simpa using hx)]
        exact ⟨NO_OFFSET, nb', rest items nb' a5 fun y hy he => hp.1 y hy (by rw [ht.2, he])⟩
    · rw [St.bind_ok (hc.2 ht _ rfl)]
      simp only [Bool.false_eq_true, if_false]
      exact ih (fun y hy => hi y (by simp [hy])) hp.2

/-- a scan fails only if a search fails -/
theorem scanLoop_noerr {ls : List Label} (hv : ValidName ls) (compress : Bool) (g : Mem) (k lu level : Nat) (r : Render)
    (h : RInv r g) (hk : k + lu = ls.length + 1) (hk0 : 0 < k) (hlev : level = lu - 1)
    (hno : ∀ i, i < ls.length → find_offset r (nameWire (ls.drop i)) (hashBytes (nameWire (ls.drop i))) ≠ .err) :
    (scanLoop (ofLabels ls) compress k lu level r).1 ≠ .err := by
  induction k generalizing lu level r with
  | zero => omega
  | succ k ih =>
    have hcount := hv.count
    simp only [scanLoop]
    have e1 : (if lu > 0 then cadd8 level 1 else .ok level) = .ok lu := by
      by_cases h0 : lu > 0
      · rw [if_pos h0, cadd8_ok (by omega)]; congr 1; omega
      · rw [if_neg h0]; congr 1; omega
    rw [St.bind_ok (s' := r) (a := lu) (by rw [e1]; rfl),
      St.bind_ok (s' := r) (a := lu + 1) (by rw [cadd8_ok (by omega)]; rfl)]
    rw [show (ofLabels ls).label_count % 256 = ls.length + 1 by rw [Name.ofLabels_count]; omega]
    by_cases hroot : lu + 1 = ls.length + 1
    · rw [if_pos hroot]; simp [pure]
    · rw [if_neg hroot]
      have hlu : lu < ls.length := by omega
      rw [St.bind_ok (s' := r) (a := nameWire (ls.drop lu)) (by rw [refData_ofLabels hlu]; rfl)]
      rw [St.get_bind]
      rw [St.bind_ok (s' := r) (a := r.label_hashes[lu]'(by rw [h.hlen]; omega)) (by rw [idx_of_lt (by rw [h.hlen]; omega)]; rfl)]
      generalize hr1 : ({ r with label_hashes := r.label_hashes.set lu (hashBytes (nameWire (ls.drop lu))) } : Render) = r1
      have h1 : RInv r1 g := by rw [← hr1]; exact RInv.setHashes h (by simp [h.hlen])
      have hno1 : ∀ i, i < ls.length → find_offset r1 (nameWire (ls.drop i)) (hashBytes (nameWire (ls.drop i))) ≠ .err := by
        rw [← hr1]; exact hno
      rw [St.put_bind]
      have hrec := ih (lu + 1) lu r1 h1 (by omega) (by omega) (by omega) hno1
      cases compress with
      | false => simpa using hrec
      | true =>
        simp only [if_true]
        rw [St.get_bind]
        cases hf : find_offset r1 (nameWire (ls.drop lu)) (hashBytes (nameWire (ls.drop lu))) with
        | panic => exact fun hx => by cases hx
        | err => exact absurd hf (hno1 lu hlu)
        | ok off1 =>
          rw [St.lift_ok_bind rfl]
          by_cases hoff : off1 = NO_OFFSET
          · rw [if_neg (by simpa using hoff)]; exact hrec
          · rw [if_pos hoff]; simp [pure]

/-- with such a table a name is written whenever there is room for its wire form -/
theorem write_name_distinct {S : List Label → Prop} {ls : List Label} (hv : ValidName ls) (compress : Bool) {r : Render} {g : Mem} (h : RInv r g)
    (ht : Tagged S r g) (hd : Distinct r 0) (hfit : r.buffer.len + (nameWire ls).length ≤ r.buffer.capacity) :
    (write_name (ofLabels ls) compress r).1 = .ok () := by
  unfold write_name
  obtain ⟨hs, h1, h2, h3⟩ := scanLoop_spec hv compress g (ofLabels ls).label_count 0 0 r h (by rw [Name.ofLabels_count])
    (by rw [Name.ofLabels_count]; omega) rfl
  have hno := scanLoop_noerr hv compress g (ofLabels ls).label_count 0 0 r h (by rw [Name.ofLabels_count])
    (by rw [Name.ofLabels_count]; omega) rfl fun i hi => by
      rw [find_offset_eq h]
      obtain ⟨off, nb', hx⟩ := findItems_distinct h.buf h.mem _ (bucketItems_tag h ht (hashBytes (nameWire (ls.drop i)))) (hd _).1
        (hv.sublist (List.drop_sublist i ls))
      rw [hx]; simp
  generalize hres : scanLoop (ofLabels ls) compress (ofLabels ls).label_count 0 0 r = res at h2 h3 hno
  obtain ⟨x, r1⟩ := res
  simp only at h2 h3 hno
  subst h2
  have hinv1 : RInv { r with label_hashes := hs } g := RInv.setHashes h h1
  rcases h3 with ⟨h3, _⟩ | ⟨lu, off, h3, hsc⟩
  · exact absurd h3 hno
  · rw [h3] at hres
    rw [St.bind_ok hres]
    simp only
    rw [St.get_bind]
    have hem := emitName_spec compress hsc { r with label_hashes := hs } h.buf
    simp only at hem
    have hle := emitted_le hsc
    have hfit' : r.buffer.len + (emitted ls lu off).length ≤ r.buffer.capacity := by omega
    rw [St.bind_ok (hem.1 hfit')]
    obtain ⟨hi2, hle, hcont⟩ := RInv.append hinv1 hfit'
    simp only at hi2
    have hdec := fun j hj => emitted_decodes hv hsc hinv1 j hj
    simp only at hdec
    have hlu : lu ≤ ls.length + 1 := by rcases hsc with ⟨_, h⟩ | ⟨_, _, h, _⟩ <;> omega
    obtain ⟨r2, hr2, hr2i, hr2b⟩ := registerLoop_spec (e := 0) hv (start := r.buffer.len) lu 0 _ hi2 (by omega) (fun j _ hj => by
      have := hdec j (Or.inl (by omega))
      exact ⟨_, this.1, this.2.1 (by omega), this.2.2 (by omega)⟩)
    have hz : (wire (ls.take 0)).length = 0 := by simp
    rw [hz, Nat.add_zero, Nat.sub_zero] at hr2
    have e : (ofLabels ls).len = (nameWire ls).length := by rw [Name.len, Name.ofLabels_raw, nameWire_eq]
    rw [e, hr2]

theorem Distinct.new (backing : List UInt8) (n : Nat) : Distinct (Render.new backing) n := by
  intro h
  have hb := bucket_lt h
  have : bucketItems (Render.new backing) h = [] := by
    unfold bucketItems
    simp only [Render.new]
    rw [List.getElem?_replicate_of_lt (n := BUCKETS) (a := 0) (by exact hb)]
    simp
  rw [this]; simp

theorem Distinct.same {r r' : Render} {n : Nat} (h : Distinct r n) (h1 : r'.table = r.table) (h2 : r'.item_counts = r.item_counts) : Distinct r' n := by
  intro x
  have : bucketItems r' x = bucketItems r x := by unfold bucketItems; rw [h1, h2]
  rw [this]; exact h x

end Render
end R53
