import Verif.Spec.Seek
import Verif.Proofs.Encode
/-!
# The search of the renderer, for any names
-/
namespace R53
open Name (ofLabels)

/-! ## comparing octets -/

theorem meets_append (a b s : List UInt8) : meets (a ++ b) s = match meets a s with
    | .all r => meets b r
    | .differ r => .differ r
    | .short => .short := by
  induction a generalizing s with
  | nil => simp [meets]
  | cons x a ih =>
    cases s with
    | nil => simp [meets]
    | cons y s =>
      rw [List.cons_append, meets, meets]
      by_cases h : x = y
      · rw [if_pos h, if_pos h, ih]
      · rw [if_neg h, if_neg h]

theorem meets_all {w s r : List UInt8} (h : meets w s = .all r) : s = w ++ r := by
  induction w generalizing s with
  | nil => simpa [meets] using h
  | cons x w ih =>
    cases s with
    | nil => simp [meets] at h
    | cons y s =>
      rw [meets] at h
      by_cases hx : x = y
      · rw [if_pos hx] at h; rw [ih h, hx]; rfl
      · rw [if_neg hx] at h; simp at h

theorem meets_differ {w s r : List UInt8} (h : meets w s = .differ r) : ∃ a, s = a ++ r := by
  induction w generalizing s with
  | nil => simp [meets] at h
  | cons x w ih =>
    cases s with
    | nil => simp [meets] at h
    | cons y s =>
      rw [meets] at h
      by_cases hx : x = y
      · rw [if_pos hx] at h
        obtain ⟨a, ha⟩ := ih h
        exact ⟨y :: a, by rw [ha]; rfl⟩
      · rw [if_neg hx] at h
        simp only [Met.differ.injEq] at h
        exact ⟨[y], by rw [h]; rfl⟩

theorem meets_self (w r : List UInt8) : meets w (w ++ r) = .all r := by
  induction w with
  | nil => rfl
  | cons x w ih => rw [List.cons_append, meets, if_pos rfl, ih]

/-- a result and the buffer it leaves -/
structure Left (nb nb' : InBuf) (rest : List UInt8) : Prop where
  data : nb'.data = nb.data
  rest : nb'.data.drop nb'.pos = rest

namespace Render

theorem cmpLabelBytes_meets {ob : OutBuf} (hb : ob.Inv) {g : Mem} (hm : g.le (memOf ob.contents)) (l : Label) (p : Nat) (nb : InBuf)
    (hl : ∀ i (h : i < l.length), g (p + i) = some l[i]) (hp : p + l.length < 65536) :
    (∀ rest, meets l (nb.data.drop nb.pos) = .all rest → ∃ nb', cmpLabelBytes ob l.length p nb = (.ok (some (p + l.length)), nb') ∧ Left nb nb' rest) ∧
    (∀ rest, meets l (nb.data.drop nb.pos) = .differ rest → ∃ nb', cmpLabelBytes ob l.length p nb = (.ok none, nb') ∧ Left nb nb' rest) ∧
    (meets l (nb.data.drop nb.pos) = .short → (cmpLabelBytes ob l.length p nb).1 = .err) := by
  induction l generalizing p nb with
  | nil =>
    refine ⟨fun rest h => ?_, fun rest h => by simp [meets] at h, fun h => by simp [meets] at h⟩
    simp only [meets, Met.all.injEq] at h
    exact ⟨nb, by simp [cmpLabelBytes], rfl, h⟩
  | cons x l ih =>
    have h0 := hl 0 (by simp)
    simp only [Nat.add_zero, List.getElem_cons_zero] at h0
    simp only [List.length_cons] at hp ⊢
    simp only [cmpLabelBytes]
    rw [St.bind_ok (s' := nb) (a := x) (by rw [at_mem hb hm h0]; rfl), St.bind_apply, InBuf.read_u8_eq]
    by_cases hlt : nb.pos < nb.data.length
    · rw [List.getElem?_eq_getElem hlt, List.drop_eq_getElem_cons hlt, meets]
      simp only
      by_cases hx : x = nb.data[nb.pos]
      · rw [if_pos hx, if_neg (by simpa using hx), if_pos (by omega)]
        have := ih (p + 1) { nb with pos := nb.pos + 1 } (fun i hi => by
          have := hl (i + 1) (by simp; omega)
          rw [show p + 1 + i = p + (i + 1) by omega, this]; simp) (by omega)
        rw [show p + 1 + l.length = p + (l.length + 1) by omega] at this
        exact ⟨fun rest h => by obtain ⟨nb', a, b⟩ := this.1 rest h; exact ⟨nb', a, b.data, b.rest⟩,
          fun rest h => by obtain ⟨nb', a, b⟩ := this.2.1 rest h; exact ⟨nb', a, b.data, b.rest⟩, this.2.2⟩
      · rw [if_neg hx, if_pos (by simpa using hx)]
        refine ⟨fun rest h => by simp at h, fun rest h => ?_, fun h => by simp at h⟩
        simp only [Met.differ.injEq] at h
        exact ⟨{ nb with pos := nb.pos + 1 }, rfl, rfl, h⟩
    · rw [List.getElem?_eq_none (by omega), List.drop_eq_nil_of_le (by omega)]
      refine ⟨fun rest h => by simp [meets] at h, fun rest h => by simp [meets] at h, fun _ => rfl⟩

theorem compareLoop_meets {ob : OutBuf} (hb : ob.Inv) {g : Mem} (hm : g.le (memOf ob.contents)) (fuel : Nat) {limit pos : Nat}
    {ls : List Label} {e : Nat} (h : DecodesM g limit pos ls e) (nb : InBuf) (hlim : limit ≤ ob.len)
    (hp : pos + (nameWire ls).length < 0x4200) (hw : (nameWire ls).length ≤ 255) (hf : ls.length < fuel) :
    (∀ rest, meets (nameWire ls) (nb.data.drop nb.pos) = .all rest → ∃ nb', compareLoop ob fuel pos nb = (.ok true, nb')) ∧
    (∀ rest, meets (nameWire ls) (nb.data.drop nb.pos) = .differ rest → ∃ nb', compareLoop ob fuel pos nb = (.ok false, nb') ∧ Left nb nb' rest) ∧
    (meets (nameWire ls) (nb.data.drop nb.pos) = .short → (compareLoop ob fuel pos nb).1 = .err) := by
  induction fuel generalizing limit pos ls e nb with
  | zero => omega
  | succ fuel ih =>
    have hnx := nextLabel_spec hb hm h (ob.len + 1) (by omega)
    simp only [compareLoop]
    by_cases hlt : nb.pos < nb.data.length
    · have hdr : nb.data.drop nb.pos = nb.data[nb.pos] :: nb.data.drop (nb.pos + 1) := List.drop_eq_getElem_cons hlt
      rw [hdr]
      cases ls with
      | nil =>
        obtain ⟨p, hnx⟩ := hnx
        rw [St.bind_ok (s' := nb) (a := (0, p)) (by rw [hnx]; rfl), St.bind_apply, InBuf.read_u8_eq, List.getElem?_eq_getElem hlt]
        simp only
        rw [show nameWire [] = [0] from rfl, meets]
        by_cases hc : nb.data[nb.pos] = 0
        · rw [if_pos hc.symm, if_neg (by simpa using hc), if_pos hc]
          exact ⟨fun rest _ => ⟨_, rfl⟩, fun rest h => by simp [meets] at h, fun h => by simp [meets] at h⟩
        · rw [if_neg (fun hx => hc hx.symm), if_pos (by simpa using hc)]
          refine ⟨fun rest h => by simp at h, fun rest h => ?_, fun h => by simp at h⟩
          simp only [Met.differ.injEq] at h
          exact ⟨{ nb with pos := nb.pos + 1 }, rfl, rfl, h⟩
      | cons l ls =>
        obtain ⟨q, lim', e', hnx, hv, hq, hl', hg, hd'⟩ := hnx
        have hwl : (nameWire (l :: ls)).length = l.length + 1 + (nameWire ls).length := by
          simp only [nameWire]; rw [List.length_append, List.length_append, wire_length_cons]; omega
        have hwe : nameWire (l :: ls) = UInt8.ofNat l.length :: (l ++ nameWire ls) := by simp [nameWire]
        rw [St.bind_ok (s' := nb) (a := (UInt8.ofNat l.length, (q + 1) % 65536)) (by rw [hnx]; rfl), St.bind_apply, InBuf.read_u8_eq,
          List.getElem?_eq_getElem hlt]
        simp only
        rw [hwe, meets]
        by_cases hc : nb.data[nb.pos] = UInt8.ofNat l.length
        · have hlc : (nb.data[nb.pos]).toNat = l.length := by rw [hc]; exact u8_len hv.2
          have hc0 : nb.data[nb.pos] ≠ 0 := by intro h0; rw [h0] at hlc; have := hv.1; simp at hlc; omega
          rw [if_pos hc.symm, if_neg (by simpa using hc), if_neg hc0, hlc, Nat.mod_eq_of_lt (by omega), meets_append]
          have hcmp := cmpLabelBytes_meets hb hm l (q + 1) { nb with pos := nb.pos + 1 } hg (by omega)
          simp only at hcmp
          rw [St.bind_apply]
          cases hmt : meets l (nb.data.drop (nb.pos + 1)) with
          | all rest =>
            obtain ⟨nb1, k1, k2⟩ := hcmp.1 rest hmt
            rw [k1]
            simp only
            have hrec := ih hd' nb1 (by omega) (by omega) (by omega) (by simp at hf; omega)
            rw [k2.rest] at hrec
            have hdat : nb1.data = nb.data := k2.data
            exact ⟨hrec.1, fun rest h => by obtain ⟨nb', a, b⟩ := hrec.2.1 rest h; exact ⟨nb', a, b.data.trans hdat, b.rest⟩, hrec.2.2⟩
          | differ rest =>
            obtain ⟨nb1, k1, k2⟩ := hcmp.2.1 rest hmt
            rw [k1]
            simp only
            refine ⟨fun rest h => by simp at h, fun rest' h => ?_, fun h => by simp at h⟩
            simp only [Met.differ.injEq] at h
            subst h
            exact ⟨nb1, rfl, k2.data, k2.rest⟩
          | short =>
            have k1 := hcmp.2.2 hmt
            generalize hres : cmpLabelBytes ob l.length (q + 1) { nb with pos := nb.pos + 1 } = res at k1
            obtain ⟨y, s⟩ := res
            simp only at k1
            subst k1
            simp only
            exact ⟨fun rest h => by simp at h, fun rest h => by simp at h, fun _ => trivial⟩
        · rw [if_neg (fun hx => hc hx.symm), if_pos (by simpa using hc)]
          refine ⟨fun rest h => by simp at h, fun rest h => ?_, fun h => by simp at h⟩
          simp only [Met.differ.injEq] at h
          exact ⟨{ nb with pos := nb.pos + 1 }, rfl, rfl, h⟩
    · rw [List.drop_eq_nil_of_le (by omega)]
      have hnone : nb.data[nb.pos]? = none := List.getElem?_eq_none (by omega)
      cases ls with
      | nil =>
        obtain ⟨p, hnx⟩ := hnx
        rw [St.bind_ok (s' := nb) (a := (0, p)) (by rw [hnx]; rfl), St.bind_apply, InBuf.read_u8_eq, hnone]
        exact ⟨fun rest h => by simp [nameWire, meets] at h, fun rest h => by simp [nameWire, meets] at h, fun _ => rfl⟩
      | cons l ls =>
        obtain ⟨q, lim', e', hnx, _⟩ := hnx
        rw [St.bind_ok (s' := nb) (a := (UInt8.ofNat l.length, (q + 1) % 65536)) (by rw [hnx]; rfl), St.bind_apply, InBuf.read_u8_eq, hnone]
        have hwe : nameWire (l :: ls) = UInt8.ofNat l.length :: (l ++ nameWire ls) := by simp [nameWire]
        rw [hwe]
        exact ⟨fun rest h => by simp [meets] at h, fun rest h => by simp [meets] at h, fun _ => rfl⟩

end Render

/-! ## the search -/

/-- what the renderer makes of a search -/
def foundAt : Option (Option Nat) → Res UInt16
  | none => .err
  | some none => .ok NO_OFFSET
  | some (some p) => .ok (UInt16.ofNat p)

/-- the test on hash and length -/
def Like (ls : List Label) (e : List Label × Nat) : Prop :=
  Render.hashBytes (nameWire e.1) = Render.hashBytes (nameWire ls) ∧ (nameWire e.1).length = (nameWire ls).length

instance (ls : List Label) (e : List Label × Nat) : Decidable (Like ls e) := by unfold Like; infer_instance

theorem findItems_seek {ob : OutBuf} (hb : ob.Inv) {g : Mem} (hm : g.le (memOf ob.contents)) (es : Dict)
    (hi : ∀ e ∈ es, ValidName e.1 ∧ e.2 ≤ 0x3fff ∧ ∃ x, DecodesM g e.2 e.2 e.1 x) {ls : List Label} (hv : ValidName ls)
    (nb : InBuf) (hnb : nb.data = nameWire ls) :
    (Render.findItems ob (Render.hashBytes (nameWire ls)) (es.map dictItem) nb).1 = foundAt (seekIn (es.filter (Like ls)) (nb.data.drop nb.pos)) := by
  induction es generalizing nb with
  | nil => rfl
  | cons e es ih =>
    obtain ⟨h1, h2, x, h3⟩ := hi e (by simp)
    have hrec := fun nb hnb => ih (fun y hy => hi y (by simp [hy])) nb hnb
    simp only [List.map_cons, Render.findItems]
    have hlen : (dictItem e).len = UInt8.ofNat nb.len ↔ (nameWire e.1).length = (nameWire ls).length := by
      rw [InBuf.len, hnb, ← UInt8.toNat_inj, dictItem_len h1, toNat_ofNat8 (by have := hv.2; omega)]
    by_cases hk : Like ls e
    · rw [List.filter_cons_of_pos (by simpa using hk), seekIn]
      have hci : Render.compareItem ob (Render.hashBytes (nameWire ls)) (dictItem e) nb = Render.compareLoop ob (nb.len + 1) e.2 nb := by
        unfold Render.compareItem
        rw [if_neg (by rintro (h | h); exact h (by rw [dictItem_hash]; exact hk.1); exact h (hlen.mpr hk.2)), dictItem_pos h2]
      have hpos : e.2 ≤ ob.len := by
        clear hlen hk hci hrec hi
        obtain ⟨en, ep⟩ := e
        simp only at h3 ⊢
        cases h3 with
        | root h => have := Render.mem_lt hb hm h; omega
        | label _ h => have := Render.mem_lt hb hm h; omega
        | pointer _ _ h => have := Render.mem_lt hb hm h; omega
      have hc := Render.compareLoop_meets hb hm (nb.len + 1) h3 nb hpos (by have := h1.2; omega) h1.2
        (by rw [InBuf.len, hnb, ← hk.2]; have := Render.length_lt_nameWire e.1; omega)
      rw [St.bind_apply, hci]
      cases hmt : meets (nameWire e.1) (nb.data.drop nb.pos) with
      | all rest =>
        obtain ⟨nb', k1⟩ := hc.1 rest hmt
        rw [k1]
        simp only [if_true, St.pure_apply, foundAt, Res.ok.injEq]
        unfold dictItem; rw [OffSetItem.new_pos]
      | differ rest =>
        obtain ⟨nb', k1, k2⟩ := hc.2.1 rest hmt
        rw [k1]
        simp only [Bool.false_eq_true, if_false]
        rw [hrec nb' (k2.data.trans hnb), k2.rest]
      | short =>
        have k1 := hc.2.2 hmt
        generalize Render.compareLoop ob (nb.len + 1) e.2 nb = res at k1
        obtain ⟨y, s⟩ := res
        simp only at k1
        subst k1
        rfl
    · rw [List.filter_cons_of_neg (by simpa using hk)]
      have hci : Render.compareItem ob (Render.hashBytes (nameWire ls)) (dictItem e) nb = (.ok false, nb) := by
        unfold Render.compareItem
        rw [if_pos]
        by_cases hh : (dictItem e).hash = Render.hashBytes (nameWire ls)
        · right
          intro hl
          exact hk ⟨by rw [dictItem_hash] at hh; exact hh, hlen.mp hl⟩
        · exact Or.inl hh
      rw [St.bind_ok hci]
      simp only [Bool.false_eq_true, if_false]
      exact hrec nb hnb

theorem find_offset_seek {r : Render} {g : Mem} {d : Dict} (h : RInv r g) (hd : DictHas r g d) {ls : List Label} (hv : ValidName ls) :
    Render.find_offset r (nameWire ls) (Render.hashBytes (nameWire ls)) = foundAt (d.seek ls) := by
  rw [Render.find_offset_eq h, hd.items]
  have := findItems_seek h.buf h.mem (inBucket (Render.hashBytes (nameWire ls)) d) (fun e he => hd.dec e (List.mem_filter.mp he).1) hv
    (InBuf.new (nameWire ls)) rfl
  rw [this]
  unfold Dict.seek Dict.alike inBucket
  rw [List.filter_filter]
  have hf : (fun e : List Label × Nat => decide (Like ls e) && decide (entryHash e % 64 = Render.hashBytes (nameWire ls) % 64)) =
      fun e => decide (Render.hashBytes (nameWire e.1) = Render.hashBytes (nameWire ls) ∧ (nameWire e.1).length = (nameWire ls).length) := by
    funext e
    rw [← Bool.decide_and, decide_eq_decide]
    unfold Like entryHash
    constructor
    · exact fun h => h.1
    · exact fun h => ⟨h, by rw [h.1]⟩
  rw [hf]
  rfl

theorem seekIn_mem {es : Dict} {s : List UInt8} {p : Nat} (h : seekIn es s = some (some p)) :
    ∃ e ∈ es, e.2 = p ∧ ∃ a b, s = a ++ (nameWire e.1 ++ b) := by
  induction es generalizing s with
  | nil => simp [seekIn] at h
  | cons e es ih =>
    rw [seekIn] at h
    cases hm : meets (nameWire e.1) s with
    | all rest =>
      rw [hm] at h
      simp only [Option.some.injEq] at h
      exact ⟨e, by simp, h, [], rest, by have := meets_all hm; simpa using this⟩
    | differ rest =>
      rw [hm] at h
      obtain ⟨e', h1, h2, a, b, h3⟩ := ih h
      obtain ⟨a', h4⟩ := meets_differ hm
      exact ⟨e', by simp [h1], h2, a' ++ a, b, by rw [h4, h3]; simp⟩
    | short => rw [hm] at h; simp at h

/-- what is found is the name -/
theorem seek_mem {d : Dict} {ls : List Label} {p : Nat} (h : d.seek ls = some (some p)) :
    ∃ e ∈ d, e.2 = p ∧ nameWire e.1 = nameWire ls := by
  obtain ⟨e, h1, h2, a, b, h3⟩ := seekIn_mem h
  obtain ⟨h4, h5⟩ := List.mem_filter.mp h1
  simp only [decide_eq_true_eq] at h5
  refine ⟨e, h4, h2, ?_⟩
  have hl := congrArg List.length h3
  simp only [List.length_append] at hl
  have ha : a = [] := List.length_eq_zero_iff.mp (by omega)
  have hb : b = [] := List.length_eq_zero_iff.mp (by omega)
  rw [h3, ha, hb]; simp

/-- the scan, by what the searches find -/
theorem scanLoop_seek {ls : List Label} (hv : ValidName ls) (d : Dict) (g : Mem) (k lu level : Nat) (r : Render)
    (h : RInv r g) (hd : DictHas r g d) (hk : k + lu = ls.length + 1) (hk0 : 0 < k) (hlev : level = lu - 1) (hh : Render.HashOK ls lu r.label_hashes) :
    (∃ lu' off hs, Render.scanLoop (ofLabels ls) true k lu level r = (.ok (lu', off), { r with label_hashes := hs }) ∧ Render.HashOK ls lu' hs ∧
      (∀ i, lu ≤ i → i < lu' → i < ls.length → d.seek (ls.drop i) = some none) ∧
      (lu' < ls.length → ∃ p, d.seek (ls.drop lu') = some (some p) ∧ off = UInt16.ofNat p)) ∨
    (∃ j r', Render.scanLoop (ofLabels ls) true k lu level r = (.err, r') ∧ lu ≤ j ∧ j < ls.length ∧
      (∀ i, lu ≤ i → i < j → d.seek (ls.drop i) = some none) ∧ d.seek (ls.drop j) = none) := by
  induction k generalizing lu level r with
  | zero => omega
  | succ k ih =>
    have hcount := hv.count
    simp only [Render.scanLoop]
    have e1 : (if lu > 0 then cadd8 level 1 else .ok level) = .ok lu := by
      by_cases h0 : lu > 0
      · rw [if_pos h0, cadd8_ok (by omega)]; congr 1; omega
      · rw [if_neg h0]; congr 1; omega
    rw [St.bind_ok (s' := r) (a := lu) (by rw [e1]; rfl),
      St.bind_ok (s' := r) (a := lu + 1) (by rw [cadd8_ok (by omega)]; rfl)]
    rw [show (ofLabels ls).label_count % 256 = ls.length + 1 by rw [Name.ofLabels_count]; omega]
    by_cases hroot : lu + 1 = ls.length + 1
    · rw [if_pos hroot]
      exact Or.inl ⟨lu + 1, NO_OFFSET, r.label_hashes, rfl, fun i hi hi' => hh i (by omega) hi', fun i h1 h2 h3 => by omega, fun h => by omega⟩
    · rw [if_neg hroot]
      have hlu : lu < ls.length := by omega
      rw [St.bind_ok (s' := r) (a := nameWire (ls.drop lu)) (by rw [Render.refData_ofLabels hlu]; rfl)]
      rw [St.get_bind]
      rw [St.bind_ok (s' := r) (a := r.label_hashes[lu]'(by rw [h.hlen]; omega)) (by rw [idx_of_lt (by rw [h.hlen]; omega)]; rfl)]
      have hh1 : Render.HashOK ls (lu + 1) (r.label_hashes.set lu (Render.hashBytes (nameWire (ls.drop lu)))) := by
        intro i hi hi'
        by_cases he : i = lu
        · subst he
          rw [List.getElem?_set_self (by rw [h.hlen]; omega)]
        · rw [List.getElem?_set_ne (by omega)]; exact hh i (by omega) hi'
      generalize hr1 : ({ r with label_hashes := r.label_hashes.set lu (Render.hashBytes (nameWire (ls.drop lu))) } : Render) = r1
      have h1 : RInv r1 g := by rw [← hr1]; exact Render.RInv.setHashes h (by simp [h.hlen])
      have hd1 : DictHas r1 g d := by rw [← hr1]; exact hd.same rfl rfl
      have hh2 : Render.HashOK ls (lu + 1) r1.label_hashes := by rw [← hr1]; exact hh1
      have hback : ∀ hs, ({ r1 with label_hashes := hs } : Render) = { r with label_hashes := hs } := by
        intro hs; rw [← hr1]
      rw [St.put_bind]
      have hvd : ValidName (ls.drop lu) := hv.sublist (List.drop_sublist lu ls)
      have hf := find_offset_seek h1 hd1 hvd
      simp only [if_true]
      rw [St.get_bind]
      cases hs : d.seek (ls.drop lu) with
      | none =>
        rw [hs] at hf
        rw [St.bind_err (s' := r1) (by rw [hf]; rfl)]
        exact Or.inr ⟨lu, r1, rfl, Nat.le_refl _, hlu, fun i h1 h2 => by omega, hs⟩
      | some o =>
        cases o with
        | none =>
          rw [hs] at hf
          rw [St.bind_ok (s' := r1) (a := NO_OFFSET) (by rw [hf]; rfl), if_neg (by simp)]
          rcases ih (lu + 1) lu r1 h1 hd1 (by omega) (by omega) (by omega) hh2 with ⟨lu', off', hs', a1, a2, a3, a4⟩ | ⟨j, r', a1, a2, a3, a4, a5⟩
          · refine Or.inl ⟨lu', off', hs', by rw [a1, hback], a2, fun i i1 i2 i3 => ?_, a4⟩
            by_cases he : i = lu
            · subst he; exact hs
            · exact a3 i (by omega) i2 i3
          · refine Or.inr ⟨j, r', a1, by omega, a3, fun i i1 i2 => ?_, a5⟩
            by_cases he : i = lu
            · subst he; exact hs
            · exact a4 i (by omega) i2
        | some p =>
          rw [hs] at hf
          have hp : UInt16.ofNat p ≠ NO_OFFSET := by
            obtain ⟨e, he, rfl, _⟩ := seek_mem hs
            have := (hd.dec e he).2.1
            intro hx
            have hx := congrArg UInt16.toNat hx
            rw [UInt16.toNat_ofNat_of_lt' (by simp only [UInt16.size]; omega)] at hx
            simp [NO_OFFSET] at hx
            omega
          rw [St.bind_ok (s' := r1) (a := UInt16.ofNat p) (by rw [hf]; rfl), if_pos hp]
          exact Or.inl ⟨lu, UInt16.ofNat p, r1.label_hashes, by rw [← hr1]; rfl, fun i hi hi' => hh2 i (by omega) hi',
            fun i h1 h2 => by omega, fun _ => ⟨p, hs, rfl⟩⟩

/-! ## names -/

/-- an entry for a longer name does not matter -/
theorem seek_longer (d : Dict) (ls ls' : List Label) (p : Nat) (h : (nameWire ls').length ≠ (nameWire ls).length) :
    Dict.seek (d ++ [(ls', p)]) ls = d.seek ls := by
  unfold Dict.seek Dict.alike
  rw [List.filter_append]
  have : List.filter (fun e : List Label × Nat => decide (Render.hashBytes (nameWire e.1) = Render.hashBytes (nameWire ls) ∧ (nameWire e.1).length = (nameWire ls).length)) [(ls', p)] = [] := by
    rw [List.filter_cons_of_neg]
    · rfl
    · simp only [decide_eq_true_eq]
      exact fun hx => h hx.2
  rw [this, List.append_nil]

theorem nameWire_drop_lt (l : Label) (ls : List Label) (j : Nat) : (nameWire (ls.drop j)).length < (nameWire (l :: ls)).length := by
  simp only [nameWire, List.length_append, wire_length_cons]
  have := congrArg List.length (wire_take_drop ls j)
  rw [List.length_append] at this
  omega

theorem seekLabels_spell (i : Nat) (d : Dict) (pos : Nat) (ls : List Label) (h : ∀ j, j < i → j < ls.length → d.seek (ls.drop j) = some none)
    (hi : i < ls.length ∨ i = ls.length + 1) :
    seekLabels d pos ls = if i < ls.length then
        (seekLabels (regs Memory.table d pos i ls) (pos + (wire (ls.take i)).length) (ls.drop i)).map fun x => (wire (ls.take i) ++ x.1, x.2)
      else some (nameWire ls, regs Memory.table d pos i ls) := by
  induction ls generalizing i d pos with
  | nil =>
    rw [if_neg (by simp)]
    cases i <;> simp [seekLabels, regs, nameWire, wire]
  | cons l ls ih =>
    cases i with
    | zero => simp [regs, wire]
    | succ i =>
      have h0 : d.seek (l :: ls) = some none := h 0 (by omega) (by simp)
      have hrec := ih i (if pos ≤ 0x3fff ∧ Memory.table d (l :: ls) then d ++ [(l :: ls, pos)] else d) (pos + (l.length + 1)) (fun j h1 h2 => by
        have := h (j + 1) (by omega) (by simp; omega)
        rw [List.drop_succ_cons] at this
        split
        · rw [seek_longer _ _ _ _ (by have := nameWire_drop_lt l ls j; omega)]; exact this
        · exact this) (by simp at hi; omega)
      rw [seekLabels, h0]
      simp only
      rw [hrec]
      by_cases hlt : i < ls.length
      · rw [if_pos hlt, if_pos (show i + 1 < (l :: ls).length by simpa using hlt)]
        simp only [List.take_succ_cons, List.drop_succ_cons, regs, Option.map_map]
        rw [wire_cons]
        simp only [List.length_append, labelWire, List.length_cons, List.cons_append]
        rw [show pos + (l.length + 1) + (wire (ls.take i)).length = pos + (l.length + (wire (ls.take i)).length + 1) by omega]
        congr 1
        funext x
        simp
      · rw [if_neg hlt, if_neg (show ¬ i + 1 < (l :: ls).length by simpa using hlt)]
        simp [nameWire, wire_cons, labelWire, regs]

theorem regs_seek (d : Dict) (pos n : Nat) (ls a : List Label) (h : ∀ j, j < n → j < ls.length → (nameWire (ls.drop j)).length ≠ (nameWire a).length) :
    Dict.seek (regs Memory.table d pos n ls) a = d.seek a := by
  induction n generalizing d pos ls with
  | zero => rfl
  | succ n ih => cases ls with
    | nil => rfl
    | cons l ls =>
      rw [regs, ih _ _ _ fun j h1 h2 => by have := h (j + 1) (by omega) (by simp; omega); rwa [List.drop_succ_cons] at this]
      split
      · exact seek_longer _ _ _ _ (h 0 (by omega) (by simp))
      · rfl

theorem nameWire_drops {ls : List Label} {i j : Nat} (h : i < j) (hi : i < ls.length) : (nameWire (ls.drop j)).length < (nameWire (ls.drop i)).length := by
  have h1 := List.drop_eq_getElem_cons hi
  rw [h1]
  have h2 : ls.drop j = (ls.drop (i + 1)).drop (j - (i + 1)) := by rw [List.drop_drop]; congr 1; omega
  rw [h2]
  exact nameWire_drop_lt _ _ _

/-- writing a name, whatever the hashes -/
theorem write_name_seek {ls : List Label} (hv : ValidName ls) {r : Render} {g : Mem} {d : Dict} (h : RInv r g) (hd : DictHas r g d) :
    (∀ x, seekLabels d r.buffer.len ls = some x → r.buffer.len + x.1.length ≤ r.buffer.capacity →
      ∃ r', Render.write_name (ofLabels ls) true r = (.ok (), r') ∧ Wrote r r' g x.1 ∧ DictHas r' (g.ext r.buffer.len x.1) x.2) ∧
    ((∀ x, seekLabels d r.buffer.len ls = some x → ¬ r.buffer.len + x.1.length ≤ r.buffer.capacity) → (Render.write_name (ofLabels ls) true r).1 = .err) := by
  unfold Render.write_name
  obtain ⟨hs', h1, h2, h3⟩ := Render.scanLoop_spec hv true g (ofLabels ls).label_count 0 0 r h (by rw [Name.ofLabels_count])
    (by rw [Name.ofLabels_count]; omega) rfl
  rcases scanLoop_seek hv d g (ofLabels ls).label_count 0 0 r h hd (by rw [Name.ofLabels_count])
    (by rw [Name.ofLabels_count]; omega) rfl (fun i hi => by omega) with ⟨lu, off, hs, k1, k2, k3, k4⟩ | ⟨j, r', k1, _, k2, k3, k4⟩
  · rw [k1] at h2 h3
    simp only at h2 h3
    have hhs : hs = hs' := by injection h2
    subst hhs
    have hsc : Render.ScanOK g ls true lu off := by
      rcases h3 with ⟨h3, _⟩ | ⟨a, b, h3, h4⟩
      · cases h3
      · injection h3 with h3; injection h3 with e1 e2; subst e1; subst e2; exact h4
    have hinv1 : RInv { r with label_hashes := hs } g := Render.RInv.setHashes h h1
    have hlu : lu < ls.length ∨ lu = ls.length + 1 := by rcases hsc with ⟨_, h⟩ | ⟨_, _, h, _⟩ <;> omega
    have key : seekLabels d r.buffer.len ls = some (Render.emitted ls lu off, regs Memory.table d r.buffer.len lu ls) := by
      rw [seekLabels_spell lu d _ ls (fun j a b => k3 j (by omega) a b) hlu]
      rcases hsc with ⟨a1, a2⟩ | ⟨_, a1, a2, a3, e, a4⟩
      · rw [if_neg (by omega)]
        simp only [Render.emitted, if_pos a1]
      · rw [if_pos a2]
        obtain ⟨p, hp, hoff⟩ := k4 a2
        have hp16 : off.toNat = p := by
          obtain ⟨e', he', rfl, _⟩ := seek_mem hp
          have := (hd.dec e' he').2.1
          rw [hoff]
          exact UInt16.toNat_ofNat_of_lt' (by simp only [UInt16.size]; omega)
        have hlook := regs_seek d r.buffer.len lu ls (ls.drop lu) (fun j b1 b2 => by have := nameWire_drops b1 b2; omega)
        rw [hp] at hlook
        have hdrop : ls.drop lu = ls[lu] :: ls.drop (lu + 1) := List.drop_eq_getElem_cons a2
        rw [hdrop] at hlook ⊢
        rw [seekLabels, hlook]
        simp only [Render.emitted, if_neg a1, pointerTo, Option.map_some, hp16]
    rw [key, St.bind_ok k1]
    simp only
    rw [St.get_bind]
    have hem := Render.emitName_exact true hsc { r with label_hashes := hs } h.buf
    simp only at hem
    refine ⟨fun x hx hfit => ?_, fun hno => ?_⟩
    · simp only [Option.some.injEq] at hx
      subst hx
      simp only at hfit ⊢
      rw [St.bind_ok (hem.1 hfit)]
      obtain ⟨hi2, hle, hcont⟩ := Render.RInv.append hinv1 hfit
      simp only at hi2 hle
      have hdec := fun j hj => Render.emitted_decodes hv hsc hinv1 j hj
      simp only at hdec
      have hik : ∀ j, 0 ≤ j → j < 0 + lu → ∃ e, DecodesM (g.ext r.buffer.len (Render.emitted ls lu off)) r.buffer.len (r.buffer.len + (wire (ls.take j)).length) (ls.drop j) e ∧
          (j < ls.length → g.ext r.buffer.len (Render.emitted ls lu off) (r.buffer.len + (wire (ls.take j)).length) = some (UInt8.ofNat (ls[j]?.getD []).length)) ∧
          (j = ls.length → g.ext r.buffer.len (Render.emitted ls lu off) (r.buffer.len + (wire (ls.take j)).length) = some 0) := fun j _ hj => by
        have := hdec j (Or.inl (by omega))
        exact ⟨_, this.1, this.2.1 (by omega), this.2.2 (by omega)⟩
      obtain ⟨r2, hr2, hr2i, hr2b⟩ := Render.registerLoop_spec (e := 0) hv (start := r.buffer.len) lu 0 _ hi2 (by omega) hik
      have hreg := registerLoop_has hv (start := r.buffer.len) lu 0 _ hi2 (by simpa using k2) (by omega) hik
        (d := d) ((hd.le hle).same rfl rfl) hr2
      simp only [List.take_zero, wire_nil, List.length_nil, Nat.add_zero, Nat.sub_zero, List.drop_zero] at hr2 hreg
      refine ⟨r2, ?_, ⟨hfit, hr2b, hr2i⟩, hreg⟩
      rw [← hr2]
      congr 1
      rw [Name.len, Name.ofLabels_raw, nameWire_eq]
    · have hd := hem.2 (hno _ rfl)
      rw [St.bind_err hd]
  · have key : seekLabels d r.buffer.len ls = none := by
      rw [seekLabels_spell j d _ ls (fun i a b => k3 i (by omega) a) (Or.inl k2), if_pos k2]
      have hlook := regs_seek d r.buffer.len j ls (ls.drop j) (fun i b1 b2 => by have := nameWire_drops b1 b2; omega)
      rw [k4] at hlook
      have hdrop : ls.drop j = ls[j] :: ls.drop (j + 1) := List.drop_eq_getElem_cons k2
      rw [hdrop] at hlook ⊢
      rw [seekLabels, hlook]
      rfl
    rw [key]
    exact ⟨fun x hx => by simp at hx, fun _ => by rw [St.bind_err k1]⟩

end R53
