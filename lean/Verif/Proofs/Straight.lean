import Verif.Spec.Straight
import Verif.Model.LimitRender
import Verif.Props.SeekHist
/-!
# Pointers go straight to a label
-/
namespace R53
open Name (ofLabels)

theorem Straight.le {g g' : Mem} (hg : g.le g') {p : Nat} {ls : List Label} (h : Straight g p ls) : Straight g' p ls := by
  induction h with
  | root h1 => exact .root (hg _ _ h1)
  | label h1 h2 h3 h4 _ ih => exact .label h1 h2 (hg _ _ h3) (fun i hi => hg _ _ (h4 i hi)) ih
  | pointer h1 h2 h3 h4 h5 h6 h7 _ ih => exact .pointer (hg _ _ h1) (hg _ _ h2) h3 h4 (hg _ _ h5) h6 h7 ih

/-- a dictionary entry stands at a label, and its pointers go straight -/
structure Stands (g : Mem) (e : List Label × Nat) : Prop where
  low : e.2 ≤ 0x3fff
  way : Straight g e.2 e.1
  head : ∃ c, g e.2 = some c ∧ 1 ≤ c.toNat ∧ c.toNat ≤ 63

theorem Stands.le {g g' : Mem} (hg : g.le g') {e : List Label × Nat} (h : Stands g e) : Stands g' e := by
  obtain ⟨c, h1, h2, h3⟩ := h.head
  exact ⟨h.low, h.way.le hg, c, hg _ _ h1, h2, h3⟩

/-- a label in front -/
theorem Straight.cons {g : Mem} {pos : Nat} {l : Label} {ls : List Label} {rest : List UInt8} (hl : ValidLabel l)
    (hg : ∀ i (h : i < (labelWire l ++ rest).length), g (pos + i) = some (labelWire l ++ rest)[i])
    (h : Straight g (pos + (l.length + 1)) ls) : Straight g pos (l :: ls) ∧ ∃ c, g pos = some c ∧ 1 ≤ c.toNat ∧ c.toNat ≤ 63 := by
  have h0 : g pos = some (UInt8.ofNat l.length) := by
    have := hg 0 (by simp [labelWire])
    simpa [labelWire] using this
  have hu := u8_len hl.2
  refine ⟨.label hl.1 hl.2 h0 (fun i hi => ?_) (by rw [show pos + 1 + l.length = pos + (l.length + 1) by omega]; exact h), _, h0, by rw [hu]; exact hl.1, by rw [hu]; exact hl.2⟩
  have := hg (i + 1) (by simp [labelWire]; omega)
  rw [show pos + 1 + i = pos + (i + 1) by omega, this]
  simp only [labelWire, List.cons_append, List.getElem_cons_succ]
  rw [List.getElem_append_left hi]

theorem tail_octets {g : Mem} {pos : Nat} {l : Label} {rest : List UInt8}
    (hg : ∀ i (h : i < (labelWire l ++ rest).length), g (pos + i) = some (labelWire l ++ rest)[i]) :
    ∀ i (h : i < rest.length), g (pos + (l.length + 1) + i) = some rest[i] := by
  intro i hi
  have := hg (l.length + 1 + i) (by simp [labelWire]; omega)
  rw [Nat.add_assoc, this]
  congr 1
  rw [List.getElem_append_right (by simp [labelWire])]
  congr 1
  simp [labelWire]

/-- a name written with the dictionary -/
theorem seekLabels_straight {g : Mem} {ls : List Label} (hv : ∀ l ∈ ls, ValidLabel l) {d : Dict} {pos : Nat} {x : List UInt8 × Dict}
    (h : seekLabels d pos ls = some x) (hvd : ∀ e ∈ d, ∀ l ∈ e.1, ValidLabel l) (hg : ∀ i (h : i < x.1.length), g (pos + i) = some x.1[i])
    (hd : ∀ e ∈ d, e.1.length ≤ ls.length → Stands g e ∧ e.2 < pos) :
    Straight g pos ls ∧ ∀ e ∈ x.2, e ∈ d ∨ Stands g e := by
  induction ls generalizing d pos x with
  | nil =>
    simp only [seekLabels, Option.some.injEq] at h
    subst h
    exact ⟨.root (by simpa using hg 0 (by simp)), fun e he => .inl he⟩
  | cons l ls ih =>
    rw [seekLabels] at h
    cases hs : d.seek (l :: ls) with
    | none => rw [hs] at h; simp at h
    | some o =>
      rw [hs] at h
      cases o with
      | some p =>
        simp only [Option.some.injEq] at h
        subst h
        refine ⟨?_, fun e he => .inl he⟩
        obtain ⟨e, he, rfl, hw⟩ := seek_mem hs
        have hn : e.1 = l :: ls := Render.nameWire_inj (hvd e he) hv hw
        obtain ⟨hst, hlt⟩ := hd e he (by rw [hn]; exact Nat.le_refl _)
        obtain ⟨c, h1, h2, h3⟩ := hst.head
        have g0 := hg 0 (by simp [pointerTo])
        have g1 := hg 1 (by simp [pointerTo])
        simp only [pointerTo, Nat.add_zero, List.getElem_cons_zero, List.getElem_cons_succ] at g0 g1
        exact .pointer g0 g1 (by have := hst.low; omega) hlt h1 h2 h3 (hn ▸ hst.way)
      | none =>
        simp only [Option.map_eq_some_iff] at h
        obtain ⟨y, hy, rfl⟩ := h
        have hl := hv l (by simp)
        have := ih (fun z hz => hv z (by simp [hz])) hy (fun e he => by
            split at he
            · rcases List.mem_append.mp he with he | he
              · exact hvd e he
              · rw [List.mem_singleton.mp he]; exact hv
            · exact hvd e he) (tail_octets hg) (fun e he hle => by
            have hd' : e ∈ d := by
              split at he
              · rcases List.mem_append.mp he with he | he
                · exact he
                · rw [List.mem_singleton.mp he] at hle; simp only [List.length_cons] at hle; omega
              · exact he
            have := hd e hd' (by simp; omega)
            exact ⟨this.1, by omega⟩)
        obtain ⟨hw, hx⟩ := this
        obtain ⟨hw, hc⟩ := hw.cons hl hg
        refine ⟨hw, fun e he => ?_⟩
        rcases hx e he with h' | h'
        · split at h'
          · rename_i hp
            rcases List.mem_append.mp h' with h' | h'
            · exact .inl h'
            · rw [List.mem_singleton.mp h']; exact .inr ⟨hp.1, hw, hc⟩
          · exact .inl h'
        · exact .inr h'

/-- a name written out -/
theorem remember_straight {g : Mem} {ls : List Label} (hv : ∀ l ∈ ls, ValidLabel l) (d : Dict) (pos : Nat)
    (hg : ∀ i (h : i < (nameWire ls).length), g (pos + i) = some (nameWire ls)[i]) :
    Straight g pos ls ∧ ∀ e ∈ remember d pos (nameWire ls).length ls, e ∈ d ∨ Stands g e := by
  induction ls generalizing d pos with
  | nil => exact ⟨.root (by simpa [nameWire] using hg 0 (by simp [nameWire])), fun e he => .inl he⟩
  | cons l ls ih =>
    have hl := hv l (by simp)
    have hc : nameWire (l :: ls) = labelWire l ++ nameWire ls := by simp [nameWire, labelWire]
    have hlen : (nameWire (l :: ls)).length = (l.length + 1) + (nameWire ls).length := by rw [hc]; simp [labelWire]; omega
    have hpos : 0 < (nameWire ls).length := by simp [nameWire]
    have hg' : ∀ i (h : i < (labelWire l ++ nameWire ls).length), g (pos + i) = some (labelWire l ++ nameWire ls)[i] := by
      rw [hc] at hg; exact hg
    rw [remember_go (by omega), hlen, Nat.add_sub_cancel_left]
    obtain ⟨hw, hx⟩ := ih (fun z hz => hv z (by simp [hz])) (if pos ≤ 0x3fff ∧ Memory.table d (l :: ls) then d ++ [(l :: ls, pos)] else d)
      (pos + (l.length + 1)) (tail_octets hg')
    obtain ⟨hw, hc⟩ := hw.cons hl hg'
    refine ⟨hw, fun e he => ?_⟩
    rcases hx e he with h' | h'
    · split at h'
      · rename_i hp
        rcases List.mem_append.mp h' with h' | h'
        · exact .inl h'
        · rw [List.mem_singleton.mp h']; exact .inr ⟨hp.1, hw, hc⟩
      · exact .inl h'
    · exact .inr h'

/-! ## every history -/

structure SInv (h : Hist) (g : Mem) : Prop where
  dict : DInv h g
  stand : ∀ e ∈ h.dictionary, Stands g e ∧ e.2 < h.r.buffer.len
  log : ∀ x ∈ h.log, Straight g x.1 x.2.1.labelList

theorem SInv.new (backing : List UInt8) : SInv ⟨Render.new backing, fun _ => false, []⟩ Mem.none :=
  ⟨DInv.new _, by simp [Hist.dictionary], by simp⟩

theorem Stands.lt {r : Render} {g : Mem} (hr : RInv r g) {e : List Label × Nat} (h : Stands g e) : e.2 < r.buffer.len := by
  obtain ⟨c, h1, _⟩ := h.head
  exact Render.mem_lt hr.buf hr.mem h1

theorem SInv.mk' {h : Hist} {g : Mem} (hd : DInv h g) (hs : ∀ e ∈ h.dictionary, Stands g e) (hl : ∀ x ∈ h.log, Straight g x.1 x.2.1.labelList) : SInv h g :=
  ⟨hd, fun e he => ⟨hs e he, (hs e he).lt hd.inv⟩, hl⟩

/-- the octets a name takes, and what is remembered of it -/
theorem write_name_straight {ls : List Label} (hv : ValidName ls) (c : Bool) {r : Render} {g : Mem} {d : Dict} (h : RInv r g) (hd : DictHas r g d)
    (hs : ∀ e ∈ d, Stands g e) :
    (∃ r' out, Render.write_name (ofLabels ls) c r = (.ok (), r') ∧ Wrote r r' g out ∧ DictHas r' (g.ext r.buffer.len out) (remember d r.buffer.len out.length ls) ∧
      Straight (g.ext r.buffer.len out) r.buffer.len ls ∧
      ∀ e ∈ remember d r.buffer.len out.length ls, Stands (g.ext r.buffer.len out) e) ∨
    (∃ r', Render.write_name (ofLabels ls) c r = (.err, r')) := by
  rcases write_name_has hv c h hd with ⟨r', out, e1, e2, e3⟩ | ⟨r', e1, _⟩
  · left
    refine ⟨r', out, e1, e2, e3, ?_⟩
    have hle := e2.le h
    have hget : ∀ i (h : i < out.length), g.ext r.buffer.len out (r.buffer.len + i) = some out[i] := fun i hi => Mem.ext_get _ _ _ i hi
    have fin : ∀ {A : Prop} {d' : Dict}, (A ∧ ∀ e ∈ d', e ∈ d ∨ Stands (g.ext r.buffer.len out) e) →
        A ∧ ∀ e ∈ d', Stands (g.ext r.buffer.len out) e := fun ⟨a, b⟩ => ⟨a, fun e he => by
      rcases b e he with h' | h'
      · exact (hs e h').le hle
      · exact h'⟩
    cases c with
    | false =>
      have ho : out = nameWire ls := by
        rcases Render.write_name_spec hv false h with ⟨r1, o1, a1, a2, a3, a4, _⟩ | ⟨r1, d1, a1, _⟩
        · rw [e1] at a1
          simp only [Prod.mk.injEq, true_and] at a1
          subst a1
          have h1 : o1 = out := by
            have hd1 := OutBuf.append_contents a3
            have hd2 := e2.data
            simp only [Render.data] at hd2
            rw [a4, hd1] at hd2
            exact List.append_cancel_left hd2
          rcases a2 with a2 | ⟨h0, _⟩
          · rw [← h1, a2]
          · simp at h0
        · rw [e1] at a1; simp at a1
      rw [ho] at fin hget ⊢
      exact fin (remember_straight hv.1 d _ hget)
    | true =>
      have hx : ∃ x, seekLabels d r.buffer.len ls = some x ∧ r.buffer.len + x.1.length ≤ r.buffer.capacity :=
        Classical.byContradiction fun hno => by
          have := (write_name_seek hv h hd).2 fun x hx hf => hno ⟨x, hx, hf⟩
          rw [e1] at this; simp at this
      obtain ⟨x, hx, hf⟩ := hx
      obtain ⟨r1, a1, a2, _⟩ := (write_name_seek hv h hd).1 x hx hf
      rw [e1] at a1
      simp only [Prod.mk.injEq, true_and] at a1
      subst a1
      have ho : out = x.1 := List.append_cancel_left (e2.data.symm.trans a2.data)
      have hr := seekLabels_remember hv hx
      rw [ho] at fin hget ⊢
      rw [← hr]
      exact fin (seekLabels_straight hv.1 hx (fun e he => (hd.dec e he).1.1) hget fun e he _ => ⟨(hs e he).le (by rw [← ho]; exact hle), (hs e he).lt h⟩)
  · exact Or.inr ⟨r', e1⟩

theorem SInv.step {h : Hist} {g : Mem} (hi : SInv h g) {op : ROp} (ha : h.Allowed op) : ∃ g', SInv (h.step op) g' := by
  have other : (h.step op).log = h.log → ∃ g', SInv (h.step op) g' := fun hl => by
    obtain ⟨g', h1, h2⟩ := hi.dict.step ha
    have hd : (h.step op).dictionary = h.dictionary := by unfold Hist.dictionary; rw [hl]
    exact ⟨g', .mk' h2 (fun e he => (hi.stand e (hd ▸ he)).1.le h1) fun x hx => (hi.log x (hl ▸ hx)).le h1⟩
  cases op with
  | name n c =>
    obtain ⟨ls, hv, rfl⟩ := ha
    rcases write_name_straight hv c hi.dict.inv hi.dict.has (fun e he => (hi.stand e he).1) with ⟨r', out, e1, e2, e3, e4, e5⟩ | ⟨r', e1⟩
    · have hs : h.step (.name (ofLabels ls) c) = ⟨r', h.hole, (h.r.len, ofLabels ls, r'.len) :: h.log⟩ := by
        unfold Hist.step; simp only [ROp.step]; rw [e1]
      have hle := e2.le hi.dict.inv
      have hdd : (h.step (.name (ofLabels ls) c)).dictionary = remember h.dictionary h.r.buffer.len out.length ls := by
        rw [hs]
        unfold Hist.dictionary
        simp only [List.foldr_cons, Render.len]
        rw [labels_ofLabels hv, e2.len, Nat.add_sub_cancel_left]
      refine ⟨g.ext h.r.buffer.len out, .mk' ?_ (fun e he => e5 e (hdd ▸ he)) ?_⟩
      · refine ⟨by rw [hs]; exact e2.inv, ?_, ?_, by rw [hdd]; rw [hs]; exact e3⟩
        · rw [hs]; intro i hh; rw [Mem.ext_lt _ _ _ _ (hi.dict.inside i hh)]; exact hi.dict.free i hh
        · rw [hs]; intro i hh; have := hi.dict.inside i hh; simp only; have := e2.len; omega
      · rw [hs]
        intro x hx
        rcases List.mem_cons.mp hx with rfl | hx
        · simp only [Render.len]
          rw [labels_ofLabels hv]; exact e4
        · exact (hi.log x hx).le hle
    · refine other ?_
      unfold Hist.step; simp only [ROp.step]; rw [e1]
  | _ =>
    refine other ?_
    unfold Hist.step
    split <;> rfl

theorem Reached.straight {backing : List UInt8} {h : Hist} (hr : Reached backing h) : ∃ g, SInv h g := by
  induction hr with
  | new => exact ⟨_, SInv.new _⟩
  | step _ ha ih => obtain ⟨g, hi⟩ := ih; exact hi.step ha
  | @reset h _ ih =>
    obtain ⟨g, hi⟩ := ih
    rw [render_reset_eq hi.dict.inv]
    exact ⟨_, SInv.new _⟩

end R53
