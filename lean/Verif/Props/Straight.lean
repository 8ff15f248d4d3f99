import Verif.Proofs.LimitRender
import Verif.Proofs.StraightRead
import Verif.Proofs.Made
import Verif.Props.Compress
import Verif.Props.Message
/-!
# C100: compression pointers go straight to a label, so searching a name is bounded work
-/
namespace R53
open Name (ofLabels)

/-- after any history, each name that was written is spelled at its place so that every pointer on the way leads backwards to a label -/
theorem c100_straight {backing : List UInt8} {h : Hist} (hr : Reached backing h) (start : Nat) (n : Name) (e : Nat) (hx : (start, n, e) ∈ h.log) :
    Straight (fun i => h.r.data[i]?) start n.labelList := by
  obtain ⟨g, hi⟩ := hr.straight
  exact (hi.log _ hx).le hi.dict.inv.mem

/-- after any history, for any name: each search for a rest of `n` octets looks at `3 n + 3` octets of the message at most, however long the
message is, however many names are in it and whatever else was written into it -/
theorem c100_search {backing : List UInt8} {h : Hist} (hr : Reached backing h) (n : Name) (compress : Bool) :
    Render.write_name_in n compress h.r = Render.write_name n compress h.r := by
  obtain ⟨g, hi⟩ := hr.straight
  exact Render.write_name_in_eq n compress hi.dict.inv hi.dict.has fun e he => (hi.stand e he).1

/-- after any history, each name that was written is read back from its place with one round for each octet and two for each label at most; for names
received from others the limit grows with the position (C95) -/
theorem c100_read {backing : List UInt8} {h : Hist} (hr : Reached backing h) (start : Nat) (n : Name) (e : Nat) (hx : (start, n, e) ∈ h.log) :
    Name.from_wire_in (n.raw.length + 2 * n.labelList.length) ⟨h.r.data, start⟩ = (.ok n, ⟨h.r.data, e⟩) := by
  rw [← c24_compression_lossless hr start n e hx]
  refine (c100_straight hr start n e hx).read ?_
  obtain ⟨g, _, _, _, h3⟩ := hr.hinv.inv
  obtain ⟨ls, rfl, b2, _⟩ := h3 _ hx
  rw [R53.labels_ofLabels b2, Name.ofLabels_raw, nameWire_eq]
  exact Nat.le_refl _

/-- a message that fits: there is a place for each of its names, the places are in the order of the names and do not overlap, and at its place
each name is spelled so that every pointer on the way leads backwards to a label, and is read back octet for octet -/
theorem c100_message {m : Response} (hm : m.Typed) (backing : List UInt8) {x : Written} (hx : m.written = some x) (hfit : x.room ≤ backing.length) :
    ∃ r, m.to_wire (Render.new backing) = (.ok x.octets.length, r) ∧ r.data = x.octets ∧
      ∃ places : List (Nat × Name × Nat),
        places.map (·.2.1) = m.question.name :: m.records.flatMap RRset.names ∧
        places.Pairwise (fun a b => a.2.2 ≤ b.1) ∧
        ∀ a ∈ places, a.1 ≤ a.2.2 ∧ a.2.2 ≤ x.octets.length ∧
          Straight (fun i => x.octets[i]?) a.1 a.2.1.labelList ∧
          Name.from_wire_in (a.2.1.raw.length + 2 * a.2.1.labelList.length) ⟨x.octets, a.1⟩ = (.ok a.2.1, ⟨x.octets, a.2.2⟩) ∧
          Name.from_wire ⟨x.octets, a.1⟩ = (.ok a.2.1, ⟨x.octets, a.2.2⟩) := by
  obtain ⟨r, a1, a2, a3⟩ := written_run hm backing hx hfit
  refine ⟨r, a1, a2, ?_⟩
  obtain ⟨h, hr, e, _, l⟩ := Made.message hm (Reached.new (backing := backing))
  simp only at e l
  rw [a3] at e l
  obtain ⟨new, k1, k2⟩ := l rfl
  simp only [List.append_nil] at k1 e
  subst k1
  have ho := hr.ordered
  refine ⟨h.log.reverse, k2, List.pairwise_reverse.mpr ho.1, ?_⟩
  intro a ha
  have ha' : a ∈ h.log := by simpa using ha
  have hd : h.r.data = x.octets := by rw [e, a2]
  have h1 := c100_straight hr a.1 a.2.1 a.2.2 ha'
  have h2 := c24_compression_lossless hr a.1 a.2.1 a.2.2 ha'
  have h3 := c100_read hr a.1 a.2.1 a.2.2 ha'
  rw [hd] at h1 h2 h3
  have hl : h.r.buffer.len = x.octets.length := by
    rw [← hd]
    exact (OutBuf.contents_length hr.hinv.inv.choose_spec.1.buf).symm
  exact ⟨(ho.2 a ha').1, hl ▸ (ho.2 a ha').2, h1, h3, h2⟩

/-! ## the premises are met, and the limits say something -/

/-- the sample history wrote a.b at 2 and c.b at 7, the second with a pointer to the b of the first -/
example : Reached (List.replicate 40 0) sampleHist ∧ (7, ofLabels [[99], [98]], 11) ∈ sampleHist.log ∧
    sampleHist.r.data.drop 7 = [1, 99, 0xC0, 4] ∧ Straight (fun i => sampleHist.r.data[i]?) 7 [[99], [98]] :=
  ⟨sampleHist_reached, by decide +kernel, by decide +kernel, c100_straight sampleHist_reached 7 (ofLabels [[99], [98]]) 11 (by decide +kernel)⟩

/-- a.b is found there with five looks, one for each octet of its wire form, and not with four: a search that runs out of looks differs from one
that does not. `c100_search` allows three for each octet and three more. -/
example :
    let rest := (ofLabels [[97], [98]]).raw
    Render.find_offset_in 4 sampleHist.r rest (Render.hashBytes rest) = .panic ∧ Render.find_offset_in 5 sampleHist.r rest (Render.hashBytes rest) = .ok 2 ∧
    Render.find_offset sampleHist.r rest (Render.hashBytes rest) = .ok 2 := by
  decide +kernel

/-- a name that is read back although its pointer leads to a pointer: `Straight` asks more than decoding does -/
def twice : List UInt8 := [1, 97, 0, 0xC0, 0, 0xC0, 3]
example : (Name.from_wire ⟨twice, 5⟩).1 = .ok (ofLabels [[97]]) ∧ ¬ Straight (fun i => twice[i]?) 5 [[97]] := by
  constructor
  · have : Decodes twice 5 5 [[97]] 7 :=
      .pointer 0xC0 3 rfl (by decide) rfl (by decide) (.pointer 0xC0 0 rfl (by decide) rfl (by decide) (.label 1 rfl (by decide) (by decide) rfl rfl (.root rfl)))
    rw [Name.from_wire_decodes (b := ⟨twice, 5⟩) this (by decide)]
  · intro h
    cases h with
    | label _ _ h1 _ _ => revert h1; decide
    | @pointer _ t c _ h1 h2 h3 h4 h5 h6 h7 _ =>
      have : t = 3 := by
        have : t < 5 := h4
        have h2' : UInt8.ofNat (t % 256) = 3 := (Option.some.inj h2).symm
        obtain rfl | rfl | rfl | rfl | rfl : t = 0 ∨ t = 1 ∨ t = 2 ∨ t = 3 ∨ t = 4 := by omega
        all_goals first | rfl | (revert h2'; decide)
      subst this
      have : c = 0xC0 := (Option.some.inj h5).symm
      subst this
      revert h7
      decide

def sampleWritten : Written := ⟨[18, 52, 128, 0, 0, 1, 0, 1, 0, 0, 0, 0, 1, 97, 0, 0, 1, 0, 1, 192, 12, 0, 1, 0, 1, 0, 0, 0, 60, 0, 4, 1, 2, 3, 4], [([[97]], 12)], 35⟩

/-- the sample message: its two names are a. at 12 and a. at 19, the second a pointer -/
example : sampleMsg.Typed ∧ (sampleMsg.question.name :: sampleMsg.records.flatMap RRset.names) = [ofLabels [[97]], ofLabels [[97]]] ∧
    ∃ x, sampleMsg.written = some x ∧ x.room ≤ 40 ∧ x.octets.drop 19 = [0xC0, 12, 0, 1, 0, 1, 0, 0, 0, 60, 0, 4, 1, 2, 3, 4] :=
  ⟨sampleMsg_fits.typed, by decide +kernel, sampleWritten, by decide +kernel, by decide, by decide⟩

end R53
