import Verif.Proofs.Render3
import Verif.Props.Buffer
/-!
# C24–C29: rendering names
-/
namespace R53
open Name (ofLabels)

/-! ## Histories of one renderer -/

/-- the operations of `MessageRender` (without `truncate`) -/
inductive ROp where
  | name (n : Name) (compress : Bool)
  | u8 (d : UInt8) | u16 (d : UInt16) | u32 (d : UInt32) | bytes (d : List UInt8)
  | skip (n : Nat) | u8At (p : Nat) (d : UInt8) | u16At (p : Nat) (d : UInt16)

def ROp.step : ROp → St Render Unit
  | .name n c => Render.write_name n c
  | .u8 d => Render.write_u8 d
  | .u16 d => Render.write_u16 d
  | .u32 d => Render.write_u32 d
  | .bytes d => Render.write_bytes d
  | .skip n => Render.skip n
  | .u8At p d => Render.write_u8_at p d
  | .u16At p d => Render.write_u16_at p d

/-- a renderer, which positions were skipped over, and where which name was written (start, name, end) -/
structure Hist where
  r : Render
  hole : Nat → Bool
  log : List (Nat × Name × Nat)

/-- names are valid and in-place writes go to skipped space only -/
def Hist.Allowed (h : Hist) : ROp → Prop
  | .name n _ => n.WF
  | .u8At p _ => h.hole p = true
  | .u16At p _ => h.hole p = true ∧ h.hole (p + 1) = true
  | _ => True

/-- perform an operation, successful or not -/
def Hist.step (h : Hist) (op : ROp) : Hist :=
  match op.step h.r with
  | (.ok _, r') =>
    { r := r'
      hole := match op with
        | .skip n => fun i => h.hole i || decide (h.r.len ≤ i ∧ i < h.r.len + n)
        | _ => h.hole
      log := match op with
        | .name n _ => (h.r.len, n, r'.len) :: h.log
        | _ => h.log }
  | (_, r') => { h with r := r' }

/-- everything that can happen to a renderer on the buffer `backing` -/
inductive Reached (backing : List UInt8) : Hist → Prop
  | new : Reached backing ⟨Render.new backing, fun _ => false, []⟩
  | step {h op} : Reached backing h → h.Allowed op → Reached backing (h.step op)
  | reset {h} : Reached backing h → Reached backing ⟨h.r.reset, fun _ => false, []⟩

/-! ## The invariant -/

structure HInv (h : Hist) : Prop where
  inv : ∃ g, RInv h.r g ∧ (∀ i, h.hole i = true → g i = none) ∧ (∀ i, h.hole i = true → i < h.r.buffer.len) ∧
    ∀ x ∈ h.log, ∃ ls, x.2.1 = ofLabels ls ∧ ValidName ls ∧ DecodesM g x.1 x.1 ls x.2.2

theorem render_reset_eq {r : Render} {g : Mem} (h : RInv r g) : r.reset = Render.new r.buffer.data := by
  unfold Render.reset Render.new
  have ht : r.table.map (fun v => List.replicate v.length (0 : OffSetItem)) = List.replicate BUCKETS (List.replicate RESERVED_ITEMS 0) := by
    apply List.eq_replicate_iff.mpr
    refine ⟨by simp [h.tlen, BUCKETS], ?_⟩
    intro b hb
    obtain ⟨v, hv, rfl⟩ := List.mem_map.mp hb
    rw [h.rows v hv]; rfl
  rw [ht, h.clen, h.hlen]
  rfl

/-- an operation that appends octets -/
theorem HInv.append {h : Hist} (hi : HInv h) {d : List UInt8} (hfit : h.r.buffer.len + d.length ≤ h.r.buffer.capacity) :
    HInv ⟨{ h.r with buffer := h.r.buffer.append d }, h.hole, h.log⟩ := by
  obtain ⟨g, h1, h2, h2', h3⟩ := hi.inv
  obtain ⟨a1, a2, a3⟩ := Render.RInv.append h1 hfit
  refine ⟨⟨g.ext h.r.buffer.len d, a1, ?_, ?_, ?_⟩⟩
  · intro i hh
    have := h2' i hh
    rw [Mem.ext_lt _ _ _ _ this]; exact h2 i hh
  · intro i hh; have := h2' i hh; simp only [OutBuf.append]; omega
  · intro x hx
    obtain ⟨ls, b1, b2, b3⟩ := h3 x hx
    exact ⟨ls, b1, b2, b3.le a2⟩

theorem HInv.patch {h : Hist} (hi : HInv h) {p : Nat} {d : List UInt8} (hp : ∀ i, p ≤ i → i < p + d.length → h.hole i = true)
    (hd : p + d.length ≤ h.r.buffer.len) :
    HInv ⟨{ h.r with buffer := ⟨overwrite h.r.buffer.data p d, h.r.buffer.len⟩ }, h.hole, h.log⟩ := by
  obtain ⟨g, h1, h2, h2', h3⟩ := hi.inv
  refine ⟨⟨g, ?_, h2, h2', h3⟩⟩
  have hc := OutBuf.contents_overwrite h1.buf hd
  have hcl := OutBuf.contents_length h1.buf
  have hinv := h1.buf
  simp only [OutBuf.Inv, OutBuf.capacity] at hinv
  refine RInv.setBuffer h1 ?_ ?_
  · simp only [OutBuf.Inv, OutBuf.capacity]; rw [overwrite_length (by omega)]; exact hinv
  · rw [hc]
    intro i c hg
    have hm := h1.mem i c hg
    simp only [memOf] at hm ⊢
    rw [overwrite_getElem? (by omega)]
    by_cases hin : p ≤ i ∧ i < p + d.length
    · rw [h2 i (hp i hin.1 hin.2)] at hg; simp at hg
    · rw [if_neg hin]; exact hm

theorem HInv.step {h : Hist} (hi : HInv h) {op : ROp} (ha : h.Allowed op) : HInv (h.step op) ∧ (op.step h.r).1 ≠ .panic := by
  obtain ⟨g, h1, h2, h2', h3⟩ := hi.inv
  have app : ∀ {d : List UInt8} {op : ROp}, op.step h.r = (if h.r.buffer.len + d.length ≤ h.r.buffer.capacity then
      (.ok (), { h.r with buffer := h.r.buffer.append d }) else (.err, h.r)) → (∀ n, op ≠ .skip n) → (∀ n c, op ≠ .name n c) →
      HInv (h.step op) ∧ (op.step h.r).1 ≠ .panic := by
    intro d op he n1 n2
    unfold Hist.step
    by_cases hfit : h.r.buffer.len + d.length ≤ h.r.buffer.capacity
    · rw [if_pos hfit] at he
      rw [he]
      refine ⟨?_, by simp⟩
      have := hi.append hfit
      cases op <;> simp_all
    · rw [if_neg hfit] at he
      rw [he]; exact ⟨hi, by simp⟩
  have pat : ∀ {p : Nat} {d : List UInt8} {op : ROp}, op.step h.r = (if p + d.length ≤ h.r.buffer.len then
      (.ok (), { h.r with buffer := ⟨overwrite h.r.buffer.data p d, h.r.buffer.len⟩ }) else (.err, h.r)) →
      (∀ i, p ≤ i → i < p + d.length → h.hole i = true) → (∀ n, op ≠ .skip n) → (∀ n c, op ≠ .name n c) →
      HInv (h.step op) ∧ (op.step h.r).1 ≠ .panic := by
    intro p d op he hh n1 n2
    unfold Hist.step
    by_cases hfit : p + d.length ≤ h.r.buffer.len
    · rw [if_pos hfit] at he
      rw [he]
      refine ⟨?_, by simp⟩
      have := hi.patch hh hfit
      cases op <;> simp_all
    · rw [if_neg hfit] at he
      rw [he]; exact ⟨hi, by simp⟩
  cases op with
  | name n c =>
    obtain ⟨ls, hv, hn⟩ := ha
    subst hn
    unfold Hist.step
    simp only [ROp.step]
    rcases Render.write_name_spec hv c h1 with ⟨r', out, a1, a2, a3, a4, a5, a6, a7⟩ | ⟨r', d, a1, a2, a3, a4, a5⟩
    · rw [a1]
      refine ⟨⟨⟨g.ext h.r.buffer.len out, a5, ?_, ?_, ?_⟩⟩, by simp⟩
      · intro i hh; rw [Mem.ext_lt _ _ _ _ (h2' i hh)]; exact h2 i hh
      · intro i hh; have := h2' i hh; simp only [a4, OutBuf.append]; omega
      · intro x hx
        rcases List.mem_cons.mp hx with rfl | hx
        · refine ⟨ls, rfl, hv, ?_⟩
          simp only [Render.len, a4, OutBuf.append]; exact a7
        · obtain ⟨ls', b1, b2, b3⟩ := h3 x hx
          exact ⟨ls', b1, b2, b3.le a6⟩
    · rw [a1]
      refine ⟨⟨⟨g, a4, h2, ?_, h3⟩⟩, by simp⟩
      intro i hh
      have := h2' i hh
      rcases a3 with a3 | a3
      · simp only [a3, OutBuf.append]; omega
      · simp only [a3]; exact this
  | u8 d =>
    refine app (d := [d]) ?_ (by simp) (by simp)
    simp only [ROp.step, Render.write_u8]
    rw [Render.write_u8_r]
  | u16 d =>
    refine app (d := be16 d) ?_ (by simp) (by simp)
    simp only [ROp.step, Render.write_u16]
    rw [Render.write_u16_r]; rfl
  | u32 d =>
    refine app (d := be32 d) ?_ (by simp) (by simp)
    simp only [ROp.step, Render.write_u32]
    rw [Render.write_u32_r]
  | bytes d =>
    refine app (d := d) ?_ (by simp) (by simp)
    simp only [ROp.step, Render.write_bytes]
    rw [Render.write_bytes_r]
  | skip n =>
    unfold Hist.step
    simp only [ROp.step, Render.skip, Render.onBuffer_apply, OutBuf.skip]
    by_cases hfit : h.r.buffer.len + n < h.r.buffer.capacity
    · rw [if_pos hfit]
      refine ⟨⟨⟨g, ?_, ?_, ?_, h3⟩⟩, by simp⟩
      · refine RInv.setBuffer h1 ?_ ?_
        · simp only [OutBuf.Inv, OutBuf.capacity] at hfit ⊢; omega
        · intro i c hg
          have hm := h1.mem i c hg
          have hl := Render.mem_lt h1.buf h1.mem hg
          simp only [memOf, OutBuf.contents] at hm ⊢
          rw [List.getElem?_take_of_lt hl] at hm
          rw [List.getElem?_take_of_lt (by omega)]; exact hm
      · intro i hh
        simp only [Bool.or_eq_true, decide_eq_true_eq] at hh
        rcases hh with hh | hh
        · exact h2 i hh
        · cases hg : g i with
          | none => rfl
          | some c => have := Render.mem_lt h1.buf h1.mem hg; simp only [Render.len] at hh; omega
      · intro i hh
        simp only [Bool.or_eq_true, decide_eq_true_eq] at hh
        rcases hh with hh | hh
        · have := h2' i hh; simp only; omega
        · simp only [Render.len] at hh ⊢; omega
    · rw [if_neg hfit]; exact ⟨hi, by simp⟩
  | u8At p d =>
    refine pat (p := p) (d := [d]) ?_ ?_ (by simp) (by simp)
    · simp only [ROp.step, Render.write_u8_at]
      rw [Render.write_u8_at_r _ _ _ h1.buf]
    · intro i h1 h2
      simp only [List.length_singleton] at h2
      have : i = p := by omega
      subst this; exact ha
  | u16At p d =>
    refine pat (p := p) (d := be16 d) ?_ ?_ (by simp) (by simp)
    · simp only [ROp.step, Render.write_u16_at]
      rw [Render.write_u16_at_r _ _ _ h1.buf]
    · intro i h1 h2
      simp only [be16, List.length_cons, List.length_nil] at h2
      by_cases hip : i = p
      · subst hip; exact ha.1
      · have : i = p + 1 := by omega
        subst this; exact ha.2

theorem Reached.hinv {backing : List UInt8} {h : Hist} (hr : Reached backing h) : HInv h := by
  induction hr with
  | new => exact ⟨⟨fun _ => none, RInv.new _ _ (fun _ => rfl), by simp, by simp, by simp⟩⟩
  | step _ ha ih => exact (ih.step ha).1
  | @reset h _ ih =>
    obtain ⟨g, h1, _⟩ := ih.inv
    rw [render_reset_eq h1]
    exact ⟨⟨fun _ => none, RInv.new _ _ (fun _ => rfl), by simp, by simp, by simp⟩⟩

/-! ## C24 -/

/-- after any history, at the place where a name was written decoding gives exactly that name (octet for octet, so
case is kept) and the cursor ends where the write ended -/
theorem c24_compression_lossless {backing : List UInt8} {h : Hist} (hr : Reached backing h) (start : Nat) (n : Name) (e : Nat)
    (hx : (start, n, e) ∈ h.log) : Name.from_wire ⟨h.r.data, start⟩ = (.ok n, ⟨h.r.data, e⟩) := by
  obtain ⟨g, h1, h2, h2', h3⟩ := hr.hinv.inv
  obtain ⟨ls, b1, b2, b3⟩ := h3 _ hx
  simp only at b1 b3
  have := Name.from_wire_decodes (b := ⟨h.r.data, start⟩) (b3.decodes h1.mem) b2.2
  rw [this, b1]

/-- no operation of a history panics -/
theorem c24_no_panic {backing : List UInt8} {h : Hist} (hr : Reached backing h) (op : ROp) (ha : h.Allowed op) :
    (op.step h.r).1 ≠ .panic := (hr.hinv.step ha).2

/-! ## C25 -/

/-- a successful `write_name` appends either the whole wire form, or (with compression) the first `i` labels and a
two-octet pointer to an offset below 0x4000 and below the name itself, where the remaining labels are spelled -/
theorem c25_pointer_backwards {backing : List UInt8} {h : Hist} (hr : Reached backing h) {ls : List Label} (hv : ValidName ls)
    (compress : Bool) (r' : Render) (hw : Render.write_name (ofLabels ls) compress h.r = (.ok (), r')) :
    r'.data = h.r.data ++ nameWire ls ∨
    (compress = true ∧ ∃ i off hi lo, i < ls.length ∧ r'.data = h.r.data ++ wire (ls.take i) ++ [hi, lo] ∧
      192 ≤ hi.toNat ∧ (hi.toNat - 192) * 256 + lo.toNat = off ∧ off < 0x4000 ∧ off < h.r.data.length ∧
      ∃ e, Decodes r'.data off off (ls.drop i) e) := by
  obtain ⟨g, h1, h2, h2', h3⟩ := hr.hinv.inv
  have hcl := OutBuf.contents_length h1.buf
  rcases Render.write_name_spec hv compress h1 with ⟨r1, out, a1, a2, a3, a4, a5, a6, a7⟩ | ⟨r1, d, a1, _⟩
  · rw [hw] at a1
    simp only [Prod.mk.injEq, true_and] at a1
    subst a1
    have hc : r'.data = h.r.data ++ out := by
      unfold Render.data; rw [a4, OutBuf.append_contents a3]
    rcases a2 with a2 | ⟨c1, i, off, c2, c3, c4, c5⟩
    · left; rw [hc, a2]
    · right
      have hhi : (UInt8.ofNat (192 + off / 256)).toNat = 192 + off / 256 := toNat_ofNat8 (by omega)
      have hlo : (UInt8.ofNat (off % 256)).toNat = off % 256 := toNat_ofNat8 (by omega)
      refine ⟨c1, i, off, _, _, c2, by rw [hc, c5, List.append_assoc], by rw [hhi]; omega, by rw [hhi, hlo]; omega, c3,
        by rw [Render.data, hcl]; exact c4, ?_⟩
      -- follow the decoding of the whole name to the pointer
      have hdec := a7.decodes a5.mem
      have walk : ∀ (j : Nat) (ls : List Label) (pos lim e : Nat), j < ls.length →
          (∃ rest, r'.data.drop pos = wire (ls.take j) ++ UInt8.ofNat (192 + off / 256) :: UInt8.ofNat (off % 256) :: rest) →
          Decodes r'.data lim pos ls e → ∃ e', Decodes r'.data off off (ls.drop j) e' := by
        intro j
        induction j with
        | zero =>
          intro ls pos lim e hj ⟨rest, hrest⟩ hd
          have g0 : r'.data[pos]? = some (UInt8.ofNat (192 + off / 256)) := by
            have := congrArg (·[0]?) hrest; simpa using this
          have g1 : r'.data[pos + 1]? = some (UInt8.ofNat (off % 256)) := by
            have := congrArg (·[1]?) hrest; simpa using this
          cases hd with
          | root k => simp at hj
          | label len k k2 k3 =>
            rw [g0] at k; simp only [Option.some.injEq] at k; rw [← k, hhi] at k3; omega
          | pointer hi lo k k2 k3 k4 k5 =>
            rw [g0] at k; rw [g1] at k3
            simp only [Option.some.injEq] at k k3
            rw [← k, ← k3, hhi, hlo, show (192 + off / 256 - 192) * 256 + off % 256 = off by omega] at k5
            exact ⟨_, k5⟩
        | succ j ih =>
          intro ls pos lim e hj ⟨rest, hrest⟩ hd
          cases ls with
          | nil => simp at hj
          | cons l ls =>
            simp only [List.take_succ_cons, wire_cons, List.cons_append, List.append_assoc] at hrest
            have g0 : r'.data[pos]? = some (UInt8.ofNat l.length) := by
              have := congrArg (·[0]?) hrest; simpa using this
            have hvl : ValidLabel l := by
              have := hd.valid; exact this l (by simp)
            have hu := u8_len hvl.2
            cases hd with
            | label len k k2 k3 k4 k5 k6 =>
              rw [g0] at k; simp only [Option.some.injEq] at k
              rw [← k, hu] at k6
              refine ih ls _ _ _ (by simp at hj; omega) ⟨rest, ?_⟩ k6
              rw [Nat.add_assoc, ← List.drop_drop, hrest, Nat.add_comm 1, List.drop_succ_cons, List.drop_left]
            | pointer hi lo k k2 =>
              rw [g0] at k; simp only [Option.some.injEq] at k; rw [← k, hu] at k2; have := hvl.2; omega
      refine walk i ls h.r.buffer.len h.r.buffer.len _ c2 ⟨[], ?_⟩ hdec
      rw [hc, c5]
      have hcl' : h.r.data.length = h.r.buffer.len := hcl
      rw [← hcl', List.drop_left]
  · rw [hw] at a1; simp at a1

/-! ## C26 -/

/-- `write_name` in any state: it returns, keeps the octets already present, appends only, and stays within the
capacity; with success or with failure -/
theorem c26_append_only {backing : List UInt8} {h : Hist} (hr : Reached backing h) {ls : List Label} (hv : ValidName ls) (compress : Bool) :
    (Render.write_name (ofLabels ls) compress h.r).1 ≠ .panic ∧
    (∃ d, (Render.write_name (ofLabels ls) compress h.r).2.data = h.r.data ++ d) ∧
    (Render.write_name (ofLabels ls) compress h.r).2.data.length ≤ h.r.buffer.capacity ∧
    (Render.write_name (ofLabels ls) compress h.r).2.buffer.capacity = h.r.buffer.capacity := by
  obtain ⟨g, h1, _⟩ := hr.hinv.inv
  have hcl := OutBuf.contents_length h1.buf
  have happ : ∀ {d : List UInt8}, h.r.buffer.len + d.length ≤ h.r.buffer.capacity →
      (h.r.buffer.append d).contents = h.r.data ++ d ∧ (h.r.buffer.append d).contents.length ≤ h.r.buffer.capacity ∧
      (h.r.buffer.append d).capacity = h.r.buffer.capacity := by
    intro d hd
    rw [OutBuf.append_contents hd]
    exact ⟨rfl, by rw [List.length_append, hcl]; exact hd, OutBuf.append_capacity hd⟩
  rcases Render.write_name_spec hv compress h1 with ⟨r1, out, a1, a2, a3, a4, a5, a6, a7⟩ | ⟨r1, d, a1, a2, a3, a4, _⟩
  · rw [a1]
    simp only [Render.data, a4]
    exact ⟨by simp, ⟨out, (happ a3).1⟩, (happ a3).2.1, (happ a3).2.2⟩
  · rw [a1]
    simp only [Render.data]
    rcases a3 with a3 | a3
    · rw [a3]; exact ⟨by simp, ⟨d, (happ a2).1⟩, (happ a2).2.1, (happ a2).2.2⟩
    · rw [a3]; exact ⟨by simp, ⟨[], by simp⟩, by rw [hcl]; exact h1.buf, rfl⟩

theorem Reached.capacity {backing : List UInt8} {h : Hist} (hr : Reached backing h) : h.r.buffer.capacity = backing.length := by
  induction hr with
  | new => rfl
  | @step h op hr ha ih =>
    obtain ⟨g, h1, _⟩ := hr.hinv.inv
    rw [← ih]
    have hh : (h.step op).r = (op.step h.r).2 := by
      unfold Hist.step
      generalize op.step h.r = res
      obtain ⟨x, r'⟩ := res
      cases x <;> rfl
    rw [hh]
    have hcap := h1.buf
    simp only [OutBuf.Inv, OutBuf.capacity] at hcap
    cases op with
    | name n c =>
      obtain ⟨ls, hv, rfl⟩ := ha
      exact (c26_append_only hr hv c).2.2.2
    | u8 d => simp only [ROp.step, Render.write_u8, Render.onBuffer_apply]; exact (c21_step (.u8 d) h.r.buffer h1.buf).2.2.1
    | u16 d => simp only [ROp.step, Render.write_u16, Render.onBuffer_apply]; exact (c21_step (.u16 d) h.r.buffer h1.buf).2.2.1
    | u32 d => simp only [ROp.step, Render.write_u32, Render.onBuffer_apply]; exact (c21_step (.u32 d) h.r.buffer h1.buf).2.2.1
    | bytes d => simp only [ROp.step, Render.write_bytes, Render.onBuffer_apply]; exact (c21_step (.bytes d) h.r.buffer h1.buf).2.2.1
    | skip n => simp only [ROp.step, Render.skip, Render.onBuffer_apply]; exact (c21_step (.skip n) h.r.buffer h1.buf).2.2.1
    | u8At p d => simp only [ROp.step, Render.write_u8_at, Render.onBuffer_apply]; exact (c21_step (.u8At p d) h.r.buffer h1.buf).2.2.1
    | u16At p d => simp only [ROp.step, Render.write_u16_at, Render.onBuffer_apply]; exact (c21_step (.u16At p d) h.r.buffer h1.buf).2.2.1
  | @reset h hr ih => exact ih

/-- the same for all operations of a history: the length never exceeds the capacity -/
theorem c26_history_capacity {backing : List UInt8} {h : Hist} (hr : Reached backing h) : h.r.data.length ≤ backing.length := by
  obtain ⟨g, h1, _⟩ := hr.hinv.inv
  rw [← hr.capacity, Render.data, OutBuf.contents_length h1.buf]; exact h1.buf

/-! ## C27, C28 -/

/-- without compression: the wire form, verbatim, exactly when it fits -/
theorem c27_uncompressed_verbatim {backing : List UInt8} {h : Hist} (hr : Reached backing h) {ls : List Label} (hv : ValidName ls) :
    (h.r.data.length + (nameWire ls).length ≤ h.r.buffer.capacity →
      (Render.write_name (ofLabels ls) false h.r).1 = .ok () ∧
      (Render.write_name (ofLabels ls) false h.r).2.data = h.r.data ++ nameWire ls) ∧
    (¬ h.r.data.length + (nameWire ls).length ≤ h.r.buffer.capacity → (Render.write_name (ofLabels ls) false h.r).1 = .err) := by
  obtain ⟨g, h1, _⟩ := hr.hinv.inv
  have hcl : h.r.data.length = h.r.buffer.len := OutBuf.contents_length h1.buf
  rcases Render.write_name_spec hv false h1 with ⟨r1, out, a1, a2, a3, a4, a5, a6, a7⟩ | ⟨r1, d, a1, a2, a3, a4, a5⟩
  · rw [a1]
    have ho : out = nameWire ls := by
      rcases a2 with a2 | ⟨a2, _⟩
      · exact a2
      · simp at a2
    refine ⟨fun _ => ⟨rfl, ?_⟩, fun hn => ?_⟩
    · simp only [Render.data, a4]; rw [OutBuf.append_contents a3, ho]
    · rw [hcl, ← ho] at hn; exact absurd a3 hn
  · rw [a1]
    have := a5 rfl
    exact ⟨fun hn => by omega, fun _ => rfl⟩

/-- compression never makes a name longer -/
theorem c28_never_enlarges {backing : List UInt8} {h : Hist} (hr : Reached backing h) {ls : List Label} (hv : ValidName ls)
    (compress : Bool) (r' : Render) (hw : Render.write_name (ofLabels ls) compress h.r = (.ok (), r')) :
    r'.data.length ≤ h.r.data.length + (nameWire ls).length := by
  rcases c25_pointer_backwards hr hv compress r' hw with h1 | ⟨_, i, off, hi, lo, h1, h2, _⟩
  · rw [h1, List.length_append]; omega
  · rw [h2]
    have htd := congrArg List.length (wire_take_drop ls i)
    rw [List.length_append, List.drop_eq_getElem_cons h1, wire_length_cons] at htd
    simp only [List.length_append, List.length_cons, List.length_nil, nameWire]
    omega

/-! ## C29 -/

/-- a reset renderer is, field for field, a new renderer on the same backing buffer -/
theorem c29_reset {backing : List UInt8} {h : Hist} (hr : Reached backing h) :
    h.r.reset = Render.new h.r.buffer.data ∧ h.r.buffer.data.length = backing.length := by
  obtain ⟨g, h1, _⟩ := hr.hinv.inv
  exact ⟨render_reset_eq h1, hr.capacity⟩

/-! ## A history that meets the hypotheses -/

/-- header skipped, `a.b`, `c.b` compressed against it, a patch of the header -/
def sampleHist : Hist :=
  ((((⟨Render.new (List.replicate 40 0), fun _ => false, []⟩ : Hist).step (.skip 2)).step (.name (ofLabels [[97], [98]]) true)).step
    (.name (ofLabels [[99], [98]]) true)).step (.u16At 0 0x1234)

example : Reached (List.replicate 40 0) sampleHist := by
  refine .step (.step (.step (.step .new trivial) ?_) ?_) ?_
  · exact ⟨[[97], [98]], by decide, rfl⟩
  · exact ⟨[[99], [98]], by decide, rfl⟩
  · exact ⟨by decide +kernel, by decide +kernel⟩

example : sampleHist.r.data = [0x12, 0x34, 1, 97, 1, 98, 0, 1, 99, 0xC0, 4] ∧
    sampleHist.log = [(7, ofLabels [[99], [98]], 11), (2, ofLabels [[97], [98]], 7)] := by decide +kernel

end R53
