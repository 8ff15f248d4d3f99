import Verif.Proofs.Message2
/-!
# More room changes nothing that was written

`Wider w`: whatever `w` does with success it does in the same way when the buffer has more octets behind its end.
-/
namespace R53

/-- the same buffer with more room -/
def OutBuf.wide (b : OutBuf) (t : List UInt8) : OutBuf := ⟨b.data ++ t, b.len⟩
def Render.wide (r : Render) (t : List UInt8) : Render := { r with buffer := r.buffer.wide t }

def Wider {α : Type} (w : St Render α) : Prop := ∀ (t : List UInt8) (r : Render) (a : α) (r' : Render), r.buffer.Inv → w r = (.ok a, r') →
  r'.buffer.Inv ∧ w (r.wide t) = (.ok a, r'.wide t)

def WiderB {α : Type} (w : St OutBuf α) : Prop := ∀ (t : List UInt8) (b : OutBuf) (a : α) (b' : OutBuf), b.Inv → w b = (.ok a, b') →
  b'.Inv ∧ w (b.wide t) = (.ok a, b'.wide t)

namespace OutBuf

theorem wide_at {b : OutBuf} (h : b.Inv) (t : List UInt8) (p : Nat) : (b.wide t).at_ p = b.at_ p := by
  unfold at_ wide
  simp only
  by_cases hp : p < b.len
  · rw [if_pos hp, if_pos hp]
    have : p < b.data.length := Nat.lt_of_lt_of_le hp h
    unfold idx
    rw [List.getElem?_append_left this]
  · rw [if_neg hp, if_neg hp]

theorem wide_capacity (b : OutBuf) (t : List UInt8) : (b.wide t).capacity = b.capacity + t.length := by simp [wide, capacity]

theorem wide_store {b : OutBuf} {p : Nat} (hp : p < b.data.length) (t : List UInt8) (d : UInt8) :
    b.store p d = .ok { b with data := b.data.set p d } ∧ (b.wide t).store p d = .ok ((⟨b.data.set p d, b.len⟩ : OutBuf).wide t) := by
  unfold store wide
  simp only
  rw [if_pos hp, if_pos (by simp; omega), List.set_append_left _ _ hp]
  exact ⟨rfl, rfl⟩

theorem wider_bytes (d : List UInt8) : WiderB (write_bytes d) := by
  intro t b a b' hi h
  unfold write_bytes at h ⊢
  rw [wide_capacity]
  by_cases hc : b.len + d.length ≤ b.capacity
  · rw [if_pos hc] at h
    simp only [Prod.mk.injEq, Res.ok.injEq, true_and] at h
    subst h
    have hc' : b.len + d.length ≤ b.data.length := hc
    refine ⟨?_, ?_⟩
    · simp only [Inv, capacity, overwrite, List.length_append, List.length_take, List.length_drop]; omega
    · rw [if_pos (by simp only [wide]; omega)]
      simp only [wide, overwrite]
      rw [List.take_append_of_le_length (by omega), List.drop_append_of_le_length hc']
      simp
  · rw [if_neg hc] at h; simp at h

theorem wider_skip (n : Nat) : WiderB (skip n) := by
  intro t b a b' hi h
  unfold skip at h ⊢
  rw [wide_capacity]
  by_cases hc : b.len + n < b.capacity
  · rw [if_pos hc] at h
    simp only [Prod.mk.injEq, Res.ok.injEq, true_and] at h
    subst h
    refine ⟨by simp only [Inv, capacity] at *; omega, ?_⟩
    rw [if_pos (by simp only [wide]; omega)]
    rfl
  · rw [if_neg hc] at h; simp at h

theorem write_u8_as (d : UInt8) (b : OutBuf) : (write_u8 d b) = write_bytes [d] b := by
  unfold write_u8 write_bytes store capacity
  by_cases h : b.len < b.data.length
  · rw [if_pos h]
    simp only [if_pos h]
    rw [if_pos (by simp; omega)]
    simp only [overwrite, List.length_singleton]
    rw [List.set_eq_take_append_cons_drop, if_pos h]
    simp
  · rw [if_neg h, if_neg (by simp; omega)]

theorem wider_u8 (d : UInt8) : WiderB (write_u8 d) := by
  intro t b a b' hi h
  rw [write_u8_as] at h ⊢
  exact wider_bytes [d] t b a b' hi h

theorem wide_len (b : OutBuf) (t : List UInt8) : (b.wide t).len = b.len := rfl

theorem wider_u16 (d : UInt16) : WiderB (write_u16 d) := by
  intro t b a b' hi h
  rw [write_u16_eq] at h ⊢
  exact wider_bytes (be16 d) t b a b' hi h

theorem wider_u32 (d : UInt32) : WiderB (write_u32 d) := by
  intro t b a b' hi h
  rw [write_u32_eq] at h ⊢
  exact wider_bytes (be32 d) t b a b' hi h

theorem wider_u16_at (p : Nat) (d : UInt16) : WiderB (write_u16_at p d) := by
  intro t b a b' hi h
  have hi' : (b.wide t).Inv := by unfold Inv at *; rw [wide_capacity, wide_len]; omega
  rw [write_u16_at_eq _ _ _ hi] at h
  rw [write_u16_at_eq _ _ _ hi', wide_len]
  by_cases hc : p + 2 ≤ b.len
  · have hc' : b.len ≤ b.data.length := hi
    rw [if_pos hc] at h
    rw [if_pos hc]
    simp only [Prod.mk.injEq, Res.ok.injEq, true_and] at h
    subst h
    refine ⟨?_, ?_⟩
    · show b.len ≤ (overwrite b.data p (be16 d)).length
      rw [overwrite_length (by rw [be16_length]; omega)]; exact hc'
    · simp only [wide, overwrite, be16_length]
      rw [List.take_append_of_le_length (by omega), List.drop_append_of_le_length (by omega)]
      simp
  · rw [if_neg hc] at h; simp at h

theorem wider_u8_at (p : Nat) (d : UInt8) : WiderB (write_u8_at p d) := by
  intro t b a b' hi h
  unfold write_u8_at at h ⊢
  rw [wide_len]
  by_cases hc : p < b.len
  · have hc' : b.len ≤ b.data.length := hi
    rw [if_pos hc, (wide_store (b := b) (by omega) t d).1] at h
    rw [if_pos hc, (wide_store (b := b) (by omega) t d).2]
    simp only [Prod.mk.injEq, Res.ok.injEq, true_and] at h
    subst h
    exact ⟨by simp only [Inv, capacity, List.length_set]; exact hc', rfl⟩
  · rw [if_neg hc] at h; simp at h

theorem wider_truncate (p : Nat) : WiderB (truncate p) := by
  intro t b a b' hi h
  unfold truncate at h ⊢
  rw [wide_len]
  by_cases hc : p < b.len
  · rw [if_pos hc] at h
    rw [if_pos hc]
    simp only [Prod.mk.injEq, Res.ok.injEq, true_and] at h
    subst h
    exact ⟨by unfold Inv at *; simp only [capacity] at *; omega, rfl⟩
  · rw [if_neg hc] at h; simp at h

theorem wide_contents {b : OutBuf} (h : b.Inv) (t : List UInt8) : (b.wide t).contents = b.contents := by
  have h' : b.len ≤ b.data.length := h
  unfold contents wide
  exact List.take_append_of_le_length h'

end OutBuf

theorem Render.wide_data {r : Render} (h : r.buffer.Inv) (t : List UInt8) : (r.wide t).data = r.data := OutBuf.wide_contents h t

namespace Wider

theorem onBuffer {α : Type} {w : St OutBuf α} (h : WiderB w) : Wider (Render.onBuffer w) := by
  intro t r a r' hi hw
  unfold Render.onBuffer at hw ⊢
  generalize hb : w r.buffer = p at hw
  obtain ⟨x, b⟩ := p
  simp only [Prod.mk.injEq] at hw
  obtain ⟨rfl, rfl⟩ := hw
  obtain ⟨h1, h2⟩ := h t _ _ _ hi hb
  refine ⟨h1, ?_⟩
  show (match w (r.buffer.wide t) with | (x, b) => (x, ({ r.wide t with buffer := b } : Render))) = _
  rw [h2]; rfl

theorem pure {α : Type} (a : α) : Wider (Pure.pure a : St Render α) := by
  intro t r x r' hi h
  obtain ⟨rfl, rfl⟩ : a = x ∧ r = r' := by simpa [Pure.pure] using h
  exact ⟨hi, rfl⟩

theorem lift {α : Type} (a : Res α) : Wider (St.lift a : St Render α) := by
  intro t r x r' hi h
  obtain ⟨rfl, rfl⟩ : a = .ok x ∧ r = r' := by simpa [St.lift] using h
  exact ⟨hi, rfl⟩

theorem boom {α : Type} : Wider (St.boom : St Render α) := by
  intro t r x r' hi h
  simp [St.boom] at h

theorem bind {α β : Type} {w : St Render α} {f : α → St Render β} (h : Wider w) (hf : ∀ a, Wider (f a)) : Wider (w >>= f) := by
  intro t r x r' hi hw
  obtain ⟨a, s, h1, h2⟩ := St.bind_ok_inv hw
  obtain ⟨k1, k2⟩ := h t _ _ _ hi h1
  obtain ⟨k3, k4⟩ := hf a t _ _ _ k1 h2
  exact ⟨k3, by rw [St.bind_ok k2, k4]⟩

/-- reading something of the renderer that more room does not change -/
theorem get {β γ : Type} (g : Render → γ) (hg : ∀ r t, r.buffer.Inv → g (r.wide t) = g r) {f : γ → St Render β} (hf : ∀ c, Wider (f c)) :
    Wider (St.get >>= fun r => f (g r)) := by
  intro t r x r' hi hw
  rw [St.get_bind] at hw ⊢
  rw [hg r t hi]
  exact hf _ t _ _ _ hi hw

end Wider

/-! ## names -/
namespace Render

theorem nextLabel_wide {o : OutBuf} (h : o.Inv) (t : List UInt8) (fuel p : Nat) : nextLabel (o.wide t) fuel p = nextLabel o fuel p := by
  induction fuel generalizing p with
  | zero => rfl
  | succ fuel ih => simp only [nextLabel, OutBuf.wide_at h, ih]

theorem cmpLabelBytes_wide {o : OutBuf} (h : o.Inv) (t : List UInt8) (n p : Nat) : cmpLabelBytes (o.wide t) n p = cmpLabelBytes o n p := by
  induction n generalizing p with
  | zero => rfl
  | succ n ih => simp only [cmpLabelBytes, OutBuf.wide_at h, ih]

theorem compareLoop_wide {o : OutBuf} (h : o.Inv) (t : List UInt8) (fuel p : Nat) : compareLoop (o.wide t) fuel p = compareLoop o fuel p := by
  induction fuel generalizing p with
  | zero => rfl
  | succ fuel ih =>
    unfold compareLoop
    simp only [nextLabel_wide h, cmpLabelBytes_wide h, OutBuf.wide_len]
    congr 1; funext l; congr 1; funext n
    split
    · rfl
    · split
      · rfl
      · congr 1; funext x; cases x with
        | none => rfl
        | some p => exact ih p

theorem findItems_wide {o : OutBuf} (h : o.Inv) (t : List UInt8) (hash : UInt32) (items : List OffSetItem) :
    findItems (o.wide t) hash items = findItems o hash items := by
  induction items with
  | nil => rfl
  | cons i items ih =>
    have : compareItem (o.wide t) hash i = compareItem o hash i := by
      funext nb; unfold compareItem; rw [compareLoop_wide h]
    simp only [findItems, ih, this]

theorem find_offset_wide (r : Render) (t : List UInt8) (h : r.buffer.Inv) (d : List UInt8) (hash : UInt32) :
    find_offset (r.wide t) d hash = find_offset r d hash := by
  unfold find_offset
  show (do
    let items ← idx r.table (hash % 64).toNat
    let count ← idx r.item_counts (hash % 64).toNat
    let items ← slice items 0 count
    (findItems (r.buffer.wide t) hash items (InBuf.new d)).1) = _
  simp only [findItems_wide h]

theorem wider_scan (name : Name) (compress : Bool) (k lu level : Nat) : Wider (scanLoop name compress k lu level) := by
  induction k generalizing lu level with
  | zero => exact Wider.pure _
  | succ k ih =>
    unfold scanLoop
    refine Wider.bind (Wider.lift _) fun level => Wider.bind (Wider.lift _) fun l1 => ?_
    split
    · exact Wider.pure _
    · refine Wider.bind (Wider.lift _) fun d => ?_
      intro t r x r' hi hw
      rw [St.get_bind] at hw ⊢
      obtain ⟨a, s, h1, h2⟩ := St.bind_ok_inv hw
      obtain ⟨k1, k2⟩ := Wider.lift _ t _ _ _ hi h1
      have hs : s = r := by simp [St.lift] at h1; exact h1.2.symm
      subst hs
      rw [St.bind_ok (m := St.lift (idx (s.wide t).label_hashes lu)) k2]
      rw [St.put_bind] at h2 ⊢
      have hrest : Wider (if compress = true then do
          let r ← St.get
          let offset ← St.lift (find_offset r d (hashBytes d))
          if offset ≠ NO_OFFSET then Pure.pure (lu, offset) else scanLoop name compress k (lu + 1) level
        else scanLoop name compress k (lu + 1) level : St Render (Nat × UInt16)) := by
        split
        · refine Wider.get (fun r => find_offset r d (hashBytes d)) (fun r t h => find_offset_wide r t h _ _)
            (f := fun o => St.lift o >>= fun offset => if offset ≠ NO_OFFSET then Pure.pure (lu, offset) else scanLoop name compress k (lu + 1) level) fun c => ?_
          refine Wider.bind (Wider.lift _) fun o => ?_
          split
          · exact Wider.pure _
          · exact ih _ _
        · exact ih _ _
      exact hrest t { s with label_hashes := s.label_hashes.set lu (hashBytes d) } _ _ hi h2

theorem add_offset_wide (r : Render) (t : List UInt8) (hash : UInt32) (off : UInt16) (len : UInt8) :
    add_offset (r.wide t) hash off len = (add_offset r hash off len >>= fun r' => .ok (r'.wide t)) := by
  unfold add_offset
  simp only [Render.wide]
  cases idx r.item_counts (hash % 64).toNat with
  | err => rfl
  | panic => rfl
  | ok c =>
    simp only [Res.bind_ok]
    split
    · rfl
    · cases idx r.table (hash % 64).toNat with
      | err => rfl
      | panic => rfl
      | ok items =>
        simp only [Res.bind_ok]
        cases idx items c <;> rfl

theorem add_offset_keeps {r r' : Render} {hash : UInt32} {off : UInt16} {len : UInt8} (h : add_offset r hash off len = .ok r') :
    r'.buffer = r.buffer := by
  unfold add_offset at h
  simp only [Res.bind_eq_ok] at h
  obtain ⟨c, _, h⟩ := h
  split at h
  · simp at h; rw [h]
  · simp only [Res.bind_eq_ok] at h
    obtain ⟨_, _, _, _, h⟩ := h
    simp at h; rw [← h]

theorem wider_register (k i name_pos name_len : Nat) : Wider (registerLoop k i name_pos name_len) := by
  induction k generalizing i name_pos name_len with
  | zero => exact Wider.pure _
  | succ k ih =>
    intro t r x r' hi hw
    unfold registerLoop at hw ⊢
    rw [St.get_bind] at hw ⊢
    have hat : (r.wide t).buffer.at_ name_pos = r.buffer.at_ name_pos := OutBuf.wide_at hi t _
    rw [hat]
    obtain ⟨a, s, h1, h2⟩ := St.bind_ok_inv hw
    obtain ⟨ha, hs⟩ : r.buffer.at_ name_pos = .ok a ∧ r = s := by simpa [St.lift] using h1
    subst hs
    rw [St.lift_ok_bind ha]
    split at h2
    · rename_i h0
      rw [if_pos h0]; exact Wider.pure () t _ _ _ hi h2
    · rename_i h0
      rw [if_neg h0]
      split at h2
      · rename_i hm
        rw [if_pos hm]; exact Wider.pure () t _ _ _ hi h2
      · rename_i hm
        rw [if_neg hm]
        obtain ⟨hash, s, h3, h4⟩ := St.bind_ok_inv h2
        obtain ⟨hh, hs⟩ : idx r.label_hashes i = .ok hash ∧ r = s := by simpa [St.lift] using h3
        subst hs
        rw [St.lift_ok_bind (show idx (r.wide t).label_hashes i = .ok hash from hh)]
        obtain ⟨r1, s, h5, h6⟩ := St.bind_ok_inv h4
        obtain ⟨hr1, hs⟩ : add_offset r hash (UInt16.ofNat name_pos) (UInt8.ofNat name_len) = .ok r1 ∧ r = s := by simpa [St.lift] using h5
        subst hs
        rw [St.lift_ok_bind (a := r1.wide t) (by rw [add_offset_wide, hr1]; rfl)]
        rw [St.put_bind] at h6 ⊢
        have hrest : Wider (do
          let step ← St.lift (cadd8 a.toNat 1)
          let name_len ← St.lift (csub name_len step)
          registerLoop k (i + 1) (name_pos + step) name_len : St Render Unit) :=
          Wider.bind (Wider.lift _) fun _ => Wider.bind (Wider.lift _) fun _ => ih _ _ _
        exact hrest t _ _ _ (by rw [add_offset_keeps hr1]; exact hi) h6

theorem wider_name (name : Name) (compress : Bool) : Wider (write_name name compress) := by
  unfold write_name
  refine Wider.bind (wider_scan _ _ _ _ _) fun p => ?_
  obtain ⟨lu, off⟩ := p
  refine Wider.get (fun r => r.buffer.len) (fun _ _ _ => rfl)
    (f := fun n => emitName name compress lu off >>= fun _ => registerLoop lu 0 n name.len) fun n => ?_
  refine Wider.bind ?_ fun _ => wider_register _ _ _ _
  unfold emitName emitLabels emitPointer
  refine Wider.bind ?_ fun _ => ?_
  · split
    · exact Wider.onBuffer (OutBuf.wider_bytes _)
    · split
      · exact Wider.bind (Wider.lift _) fun _ => Wider.bind (Wider.lift _) fun _ => Wider.onBuffer (OutBuf.wider_bytes _)
      · exact Wider.pure _
  · split
    · exact Wider.onBuffer (OutBuf.wider_u16 _)
    · exact Wider.pure _

theorem wider_u8 (d : UInt8) : Wider (write_u8 d) := Wider.onBuffer (OutBuf.wider_u8 d)
theorem wider_u16 (d : UInt16) : Wider (write_u16 d) := Wider.onBuffer (OutBuf.wider_u16 d)
theorem wider_u16_at (p : Nat) (d : UInt16) : Wider (write_u16_at p d) := Wider.onBuffer (OutBuf.wider_u16_at p d)
theorem wider_u32 (d : UInt32) : Wider (write_u32 d) := Wider.onBuffer (OutBuf.wider_u32 d)
theorem wider_bytes (d : List UInt8) : Wider (write_bytes d) := Wider.onBuffer (OutBuf.wider_bytes d)
theorem wider_u8_at (p : Nat) (d : UInt8) : Wider (write_u8_at p d) := Wider.onBuffer (OutBuf.wider_u8_at p d)
theorem wider_truncate (p : Nat) : Wider (truncate p) := Wider.onBuffer (OutBuf.wider_truncate p)
theorem wider_skip (n : Nat) : Wider (skip n) := Wider.onBuffer (OutBuf.wider_skip n)

end Render

/-! ## records and messages -/

theorem Field.wider_octets (o : List UInt8) : Wider (Field.octets_to_wire o) := by
  induction o with
  | nil => exact Wider.pure _
  | cons x xs ih => exact Wider.bind (Render.wider_u8 _) fun _ => ih

theorem Field.wider_text (o : List (List UInt8)) : Wider (Field.text_to_wire o) := by
  induction o with
  | nil => exact Wider.pure _
  | cons x xs ih => exact Wider.bind (Wider.bind (Render.wider_u8 _) fun _ => Render.wider_bytes _) fun _ => ih

theorem Field.wider (c : Codec) (v : FieldVal) : Wider (Field.to_wire c v) := by
  unfold Field.to_wire
  split
  · exact Render.wider_name _ _
  · exact Field.wider_octets _
  · exact Field.wider_octets _
  · exact Render.wider_u8 _
  · exact Render.wider_u16 _
  · exact Render.wider_u32 _
  · exact Render.wider_u16 _
  · exact Field.wider_text _
  · exact Wider.bind (Render.wider_u8 _) fun _ => Render.wider_bytes _
  · exact Render.wider_bytes _
  · exact Wider.boom

theorem Field.wider_all (cs : List (Codec × Disp)) (vs : List FieldVal) : Wider (Field.allTo cs vs) := by
  induction cs generalizing vs with
  | nil => cases vs <;> exact Wider.pure _
  | cons c cs ih =>
    cases vs with
    | nil => exact Wider.boom
    | cons v vs => exact Wider.bind (Field.wider _ _) fun _ => ih vs

theorem RData.wider (rd : RData) : Wider rd.to_wire := by
  unfold RData.to_wire
  split
  · exact Wider.boom
  · exact Field.wider_all _ _

theorem RRset.wider_rdata (rd : RData) : Wider (RRset.rdata_to_wire rd) := by
  unfold RRset.rdata_to_wire
  refine Wider.get (fun r => r.buffer.len) (fun _ _ _ => rfl) (f := fun pos => (do
    Render.skip 2
    rd.to_wire
    let r ← St.get
    let n ← St.lift (csub r.buffer.len pos)
    let rdlen ← St.lift (csub n 2)
    Render.write_u16_at pos (UInt16.ofNat rdlen) : St Render Unit)) fun pos => ?_
  refine Wider.bind (Render.wider_skip 2) fun _ => Wider.bind (RData.wider rd) fun _ => ?_
  refine Wider.get (fun r => csub r.buffer.len pos) (fun _ _ _ => rfl) (f := fun c => (do
    let n ← St.lift c
    let rdlen ← St.lift (csub n 2)
    Render.write_u16_at pos (UInt16.ofNat rdlen) : St Render Unit)) fun c => ?_
  exact Wider.bind (Wider.lift _) fun _ => Wider.bind (Wider.lift _) fun _ => Render.wider_u16_at _ _

theorem RRset.wider_rr (s : RRset) (rd : RData) : Wider (s.rr_to_wire rd) :=
  Wider.bind (Render.wider_name _ _) fun _ => Wider.bind (Render.wider_u16 _) fun _ => Wider.bind (Render.wider_u16 _) fun _ =>
    Wider.bind (Render.wider_u32 _) fun _ => RRset.wider_rdata rd

theorem RRset.wider_rrs (s : RRset) (rds : List RData) : Wider (s.rrs_to_wire rds) := by
  induction rds with
  | nil => exact Wider.pure _
  | cons rd rds ih => exact Wider.bind (s.wider_rr rd) fun _ => ih

theorem RRset.wider (s : RRset) : Wider s.to_wire := by
  unfold RRset.to_wire
  split
  · exact Wider.bind (Render.wider_name _ _) fun _ => Wider.bind (Render.wider_u16 _) fun _ => Wider.bind (Render.wider_u16 _) fun _ =>
      Wider.bind (Render.wider_u32 _) fun _ => Render.wider_u16 _
  · exact s.wider_rrs _

theorem Section.wider_loop (ss : List RRset) : Wider (Section.toLoop ss) := by
  induction ss with
  | nil => exact Wider.pure _
  | cons s ss ih => exact Wider.bind s.wider fun _ => ih

theorem Section.wider (s : Section) : Wider (Section.to_wire s) := by
  cases s with
  | none => exact Wider.pure _
  | some ss => exact Section.wider_loop ss

theorem Header.wider (h : Header) : Wider h.to_wire :=
  Wider.bind (Render.wider_u16 _) fun _ => Wider.bind (Render.wider_u16 _) fun _ => Wider.bind (Render.wider_u16 _) fun _ =>
    Wider.bind (Render.wider_u16 _) fun _ => Wider.bind (Render.wider_u16 _) fun _ => Render.wider_u16 _

theorem Question.wider (q : Question) : Wider q.to_wire :=
  Wider.bind (Render.wider_name _ _) fun _ => Wider.bind (Render.wider_u16 _) fun _ => Render.wider_u16 _

theorem Render.wider_len : Wider (do let r ← St.get; pure r.len : St Render Nat) :=
  Wider.get (fun r => r.len) (fun _ _ _ => rfl) (f := fun n => pure n) fun _ => Wider.pure _

theorem Request.wider (q : Request) : Wider q.to_wire :=
  Wider.bind q.header.wider fun _ => Wider.bind q.question.wider fun _ => Render.wider_len

theorem NotifyResponse.wider (q : NotifyResponse) : Wider q.to_wire :=
  Wider.bind q.header.wider fun _ => Wider.bind q.question.wider fun _ => Render.wider_len

theorem NotifyRequest.wider (q : NotifyRequest) : Wider q.to_wire := by
  unfold NotifyRequest.to_wire
  refine Wider.bind q.header.wider fun _ => Wider.bind q.question.wider fun _ => ?_
  split
  · exact Render.wider_len
  · exact Wider.bind (RRset.wider _) fun _ => Render.wider_len

end R53
