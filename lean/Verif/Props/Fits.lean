import Verif.Proofs.Render8
import Verif.Props.Message
/-!
# C44, C46: when a message comes out whole, and when rendering panics

The size is that of the message without compression (Spec/Size.lean).
-/
namespace R53

/-! ## C44 -/

theorem SectionFits.nonempty {t : SectionType} {s : Section} (h : SectionFits t s) :
    ∀ sets, s = some sets → ∀ x ∈ sets, ∀ rd ∈ x.rdatas, 1 ≤ rd.size := by
  rintro sets rfl x hx rd hr
  exact ((h.2.1 x hx).data rd hr).2.2.1

theorem Response.Fits.noEmpty {m : Response} (h : m.Fits) : m.NoEmptyData := by
  intro t sets hs
  cases t
  · exact h.answer.nonempty sets hs
  · exact h.authority.nonempty sets hs
  · exact h.additional.nonempty sets hs

/-- a well-formed message comes out whole, in at most its uncompressed size, whenever the buffer has room for that size,
provided the hash function of the renderer tells the names of the message apart; see `c44_collision_violated` -/
theorem c44_whole_partial (m : Response) (hm : m.Fits) (hc : ClashFree m.names) (backing : List UInt8) (hfit : m.size ≤ backing.length) :
    ∃ n r, m.to_wire (Render.new backing) = (.ok n, r) ∧ n = r.data.length ∧ n ≤ m.size ∧ ∀ tail, Response.from_wire (r.data ++ tail) = .ok m := by
  obtain ⟨r0, r1, r2, r3, rfl, h1, h2, h3, h4⟩ := to_wire_room hm.typed hm.noEmpty hc backing hfit
  have hw := Response.to_wire_eq m _ _ _ _ h1 h2 h3
  obtain ⟨k1, k2, k3⟩ := c44_roundtrip m backing (hm.fitsIn _) _ _ hw
  refine ⟨_, _, hw, k1, h4, ?_⟩
  have w := (emits_message (m := m) hm.question hm.flag hm.qd (emits_body hm)).writesBack (RInv.new backing Mem.none fun _ => rfl)
  have hrun : (m.header.to_wire >>= fun _ => m.question.to_wire >>= fun _ => m.body) (Render.new backing) = (.ok (), r3) := by
    rw [St.bind_ok h1, St.bind_ok h2, h3]
  intro tail
  have hb := w.back (by rw [hrun]) tail
  rw [hrun] at hb
  rw [Response.from_wire]
  exact congrArg Prod.fst hb

/-- the hypotheses are met: question and record with the same owner, three kinds of names -/
example : ClashFree sampleMsg.names ∧ sampleMsg.size = 36 ∧ sampleMsg.names.length = 2 := by decide +kernel
example : ∃ n r, sampleMsg.to_wire (Render.new (List.replicate 512 0)) = (.ok n, r) ∧ n ≤ 36 ∧ Response.from_wire r.data = .ok sampleMsg := by
  obtain ⟨n, r, h1, _, h2, h3⟩ := c44_whole_partial sampleMsg sampleMsg_fits (by decide +kernel) (List.replicate 512 0) (by decide +kernel)
  exact ⟨n, r, h1, by have : sampleMsg.size = 36 := by decide +kernel
                      omega, by have := h3 []; rwa [List.append_nil] at this⟩

/-- "rtmz." and "rups." have the same length and the same hash -/
def clashA : Name := Name.ofLabels [[114, 116, 109, 122]]
def clashB : Name := Name.ofLabels [[114, 117, 112, 115]]

/-- rtmz is an alias of rups, which has four addresses -/
def clashMsg : Response :=
  ⟨⟨0x1234, 0x8000, .Query, .NoError, 1, 5, 0, 0⟩, ⟨clashA, .A, .IN⟩,
    some [⟨clashA, .CNAME, .IN, 60, [⟨.CNAME, [.name clashB]⟩]⟩,
      ⟨clashB, .A, .IN, 60, [⟨.A, [.ip [10, 0, 0, 1]]⟩, ⟨.A, [.ip [10, 0, 0, 2]]⟩, ⟨.A, [.ip [10, 0, 0, 3]]⟩, ⟨.A, [.ip [10, 0, 0, 4]]⟩]⟩], none, none⟩

theorem clashMsg_fits : clashMsg.Fits := by
  have ha : ∃ ls, ValidName ls ∧ clashA = Name.ofLabels ls := ⟨[[114, 116, 109, 122]], by decide, rfl⟩
  have hb : ∃ ls, ValidName ls ∧ clashB = Name.ofLabels ls := ⟨[[114, 117, 112, 115]], by decide, rfl⟩
  refine ⟨⟨ha, rfl, rfl⟩, ⟨by simp, ?_, ⟨fun h => by have := h.1; simp at this, trivial⟩, by simp, ?_⟩, trivial, trivial, rfl, rfl, rfl, rfl, rfl⟩
  · intro s hs
    simp only [List.mem_cons, List.not_mem_nil, or_false] at hs
    rcases hs with rfl | rfl
    · refine ⟨ha, rfl, rfl, ?_, by simp⟩
      intro rd hrd
      simp only [List.mem_cons, List.not_mem_nil, or_false] at hrd
      subst hrd
      exact ⟨rfl, ⟨_, rfl, hb, trivial⟩, by unfold RData.SizeOK; decide +kernel⟩
    · refine ⟨hb, rfl, rfl, ?_, by simp⟩
      intro rd hrd
      simp only [List.mem_cons, List.not_mem_nil, or_false] at hrd
      rcases hrd with rfl | rfl | rfl | rfl <;> exact ⟨rfl, ⟨_, rfl, rfl, trivial⟩, by unfold RData.SizeOK; decide +kernel⟩
  · intro s hs ho
    simp only [List.mem_cons, List.not_mem_nil, or_false] at hs
    rcases hs with rfl | rfl <;> simp at ho

/-- a well-formed message of 134 octets, written to a buffer of 512: it comes out truncated, because two of its names have the
same hash and the search for the fifth copy of one of them runs out of octets -/
theorem c44_collision_violated : clashMsg.Fits ∧ clashMsg.size ≤ 134 ∧ ∃ n r, clashMsg.to_wire (Render.new (List.replicate 512 0)) = (.ok n, r) ∧
    Response.from_wire r.data = .ok clashMsg.cut := by
  refine ⟨clashMsg_fits, by decide +kernel, ?_⟩
  generalize hw : clashMsg.to_wire (Render.new (List.replicate 512 0)) = w
  have h1 : w.1 = .ok 22 := by rw [← hw]; decide +kernel
  obtain ⟨x, r⟩ := w
  simp only at h1
  subst h1
  obtain ⟨k1, _, k3⟩ := c44_roundtrip clashMsg _ (clashMsg_fits.fitsIn _) _ _ hw
  refine ⟨22, r, rfl, ?_⟩
  rcases k3 with k3 | k3
  · exfalso
    have := k3 []
    rw [List.append_nil] at this
    rcases c43_response_total r.data with h | ⟨m, h, _, _, _, _, h6⟩
    · rw [h] at this; simp at this
    · rw [h] at this
      simp only [Res.ok.injEq] at this
      subst this
      rw [← k1] at h6
      simp [clashMsg] at h6
  · have := k3 []; rwa [List.append_nil] at this

/-! ## C46 -/

/-- with room for header and question: a panic is a failure of the records that leaves no octet behind the question -/
theorem panic_iff {m : Response} (hm : m.Typed) {r2 : Render} {g : Mem} (hi : RInv r2 g) {q : List UInt8} (hd : r2.data = m.header.octets ++ q) :
    (m.sectionsLoop (12 + q.length) [m.answer, m.authority, m.additional] r2).1 ≠ .err ∧
    ((m.sectionsLoop (12 + q.length) [m.answer, m.authority, m.additional] r2).1 = .panic ↔
      ∃ r3, m.body r2 = (.err, r3) ∧ r3.data = r2.data) := by
  rw [sectionsLoop_eq]
  rcases total_body hm r2 _ hi with ⟨r3, out, f1, f2, _⟩ | ⟨r3, f1, f2⟩
  · rw [f1]; simp
  · rw [f1]
    obtain ⟨d, hd'⟩ := f2.data
    obtain ⟨g', _, hi3⟩ := f2.inv
    have hsp := truncate_spec m hi3.buf q d (by rw [hd', hd])
    by_cases hne : d = []
    · obtain ⟨r4, t1⟩ := hsp.2 hne
      have hrun : (do m.truncate (12 + q.length); pure (12 + q.length) : St Render Nat) r3 = (.panic, r4) := St.bind_panic t1
      simp only
      rw [hrun]
      exact ⟨by simp, fun _ => ⟨r3, rfl, by rw [hd', hne, List.append_nil]⟩, fun _ => rfl⟩
    · obtain ⟨r4, t1, _⟩ := hsp.1 hne
      have hrun : (do m.truncate (12 + q.length); pure (12 + q.length) : St Render Nat) r3 = (.ok (12 + q.length), r4) := St.bind_ok t1
      simp only
      rw [hrun]
      refine ⟨by simp, by simp, ?_⟩
      rintro ⟨r3', h1, h2⟩
      simp only [Prod.mk.injEq, true_and] at h1
      subst h1
      rw [hd'] at h2
      exact absurd (List.append_cancel_left (h2.trans (List.append_nil _).symm)) hne

/-- `Err` means that header and question do not fit -/
theorem c46_err_iff (m : Response) (hm : m.Typed) (backing : List UInt8) :
    (m.to_wire (Render.new backing)).1 = .err ↔ backing.length < m.headSize := by
  obtain ⟨ls, hv, hq⟩ := hm.question
  obtain ⟨h1, h2⟩ := head_state hv hq backing
  refine ⟨fun h => ?_, h1⟩
  by_cases hlt : backing.length < m.headSize
  · exact hlt
  · obtain ⟨r2, g, e1, e2, e3, e4, e5, e6, q, e7, e8⟩ := h2 (by omega)
    rw [e1, ← e7] at h
    exact absurd h (panic_iff hm e2 e8).1

/-- a panic needs a buffer that holds header and question but not the owner name of the first record behind them -/
theorem c46_panic_range_partial (m : Response) (hm : m.Typed) (backing : List UInt8) (h : (m.to_wire (Render.new backing)).1 = .panic) :
    ∃ x rest, m.records = x :: rest ∧ m.headSize ≤ backing.length ∧ backing.length < m.headSize + x.name.raw.length := by
  obtain ⟨ls, hv, hq⟩ := hm.question
  obtain ⟨h1, h2⟩ := head_state hv hq backing
  by_cases hlt : backing.length < m.headSize
  · rw [h1 hlt] at h; simp at h
  · obtain ⟨r2, g, e1, e2, e3, e4, e5, e6, q, e7, e8⟩ := h2 (by omega)
    rw [e1, ← e7] at h
    obtain ⟨r3, f1, f2⟩ := (panic_iff hm e2 e8).2.mp h
    rcases startsWith_body hm with ⟨k1, k2⟩ | ⟨x, rest, k1, k2, k3⟩
    · rw [k2] at f1; simp at f1
    · refine ⟨x, rest, k1, by omega, ?_⟩
      by_cases hx : backing.length < m.headSize + x.name.raw.length
      · exact hx
      · exfalso
        have hlen : r2.buffer.len = m.headSize := by
          rw [← OutBuf.contents_length e2.buf]
          show r2.data.length = _
          rw [e8, List.length_append, Header.octets_length, e7]
          have : 12 ≤ m.headSize := by unfold Response.headSize; omega
          omega
        have hok : (Render.write_name x.name true r2).1 = .ok () := by
          obtain ⟨xs, xv, xe⟩ := k2
          rw [xe] at hx ⊢
          refine Render.write_name_distinct xv true e2 e3 e4 ?_
          rw [hlen, e6]
          rw [Name.ofLabels_raw, ← nameWire_eq] at hx
          omega
        exact body_data k2 k3 e2 hok f1 f2

/-- every message with a record panics in the buffer that ends with its question -/
theorem c46_full_panics (m : Response) (hm : m.Typed) (hr : m.records ≠ []) (backing : List UInt8) (hl : backing.length = m.headSize) :
    (m.to_wire (Render.new backing)).1 = .panic := by
  obtain ⟨ls, hv, hq⟩ := hm.question
  obtain ⟨h1, h2⟩ := head_state hv hq backing
  obtain ⟨r2, g, e1, e2, e3, e4, e5, e6, q, e7, e8⟩ := h2 (by omega)
  rw [e1, ← e7]
  apply (panic_iff hm e2 e8).2.mpr
  have hlen : r2.buffer.len = r2.buffer.capacity := by
    rw [← OutBuf.contents_length e2.buf, e6, hl]
    show r2.data.length = _
    rw [e8, List.length_append, Header.octets_length, e7]
    have : 12 ≤ m.headSize := by unfold Response.headSize; omega
    omega
  rcases startsWith_body hm with ⟨k1, k2⟩ | ⟨x, rest, k1, ⟨xs, xv, xe⟩, rest', k3, k4⟩
  · exact absurd k1 hr
  · rw [k4]
    rcases sized_name ⟨xs, xv, xe⟩ true r2 _ e2 with ⟨r', out, a1, a2, _, a4⟩ | ⟨r', a1, a2⟩
    · exfalso
      have := a2.fit
      have := a4 (by rw [xe]; simp [Name.ofLabels])
      omega
    · refine ⟨r', by rw [St.bind_err a1], ?_⟩
      obtain ⟨d, hd, hb⟩ := a2.app
      have : d = [] := List.length_eq_zero_iff.mp (by omega)
      subst this
      show r'.buffer.contents = r2.buffer.contents
      rw [hb, OutBuf.append_contents hd, List.append_nil]

/-- the usual case, where the first record belongs to the name asked for: exactly two buffer sizes panic -/
theorem c46_same_owner (m : Response) (hm : m.Typed) (x : RRset) (rest : List RRset) (hr : m.records = x :: rest)
    (ho : x.name = m.question.name) (hroot : m.question.name ≠ Name.root) (backing : List UInt8) :
    (m.to_wire (Render.new backing)).1 = .panic ↔ backing.length = m.headSize ∨ backing.length = m.headSize + 1 := by
  obtain ⟨ls, hv, hq⟩ := hm.question
  have hne : 0 < ls.length := by
    cases ls with
    | nil => exact absurd (by rw [hq]; rfl) hroot
    | cons l ls => simp
  obtain ⟨h1, h2⟩ := head_state hv hq backing
  by_cases hlt : backing.length < m.headSize
  · rw [h1 hlt]; simp; omega
  · obtain ⟨r2, g, e1, e2, e3, e4, e5, e6, q, e7, e8⟩ := h2 (by omega)
    rw [e1, ← e7]
    rw [(panic_iff hm e2 e8).2]
    have hlen : r2.buffer.len = m.headSize := by
      rw [← OutBuf.contents_length e2.buf]
      show r2.data.length = _
      rw [e8, List.length_append, Header.octets_length, e7]
      have : 12 ≤ m.headSize := by unfold Response.headSize; omega
      omega
    rcases startsWith_body hm with ⟨k1, k2⟩ | ⟨x', rest2, k1, k2, k3⟩
    · rw [k1] at hr; simp at hr
    · obtain rfl : x' = x := by rw [k1] at hr; simp at hr; exact hr.1
      have hS : NoClash (TailSet [Name.ofLabels ls]) := by
        intro a b ha hb hab _
        have key : ∀ c, TailSet [Name.ofLabels ls] c → ∃ i, i < ls.length ∧ c = ls.drop i := by
          intro c hc
          have hc1 := hc.1
          simp only [List.flatMap_cons, List.flatMap_nil, List.append_nil, Name.tails] at hc1
          rw [Name.ofLabels_count, Name.ofLabels_offsets, Name.ofLabels_raw, Nat.add_sub_cancel] at hc1
          obtain ⟨o, ho1, ho2⟩ := List.mem_map.mp hc1
          obtain ⟨i, hi⟩ := List.mem_iff_getElem?.mp ho1
          have hil : i < ls.length := by
            have := (List.getElem?_eq_some_iff.mp hi).1
            rw [List.length_take] at this
            omega
          rw [List.getElem?_take_of_lt hil, starts_getElem? 0 (ls ++ [[]]) i (by simp; omega)] at hi
          simp only [Option.some.injEq, Nat.zero_add] at hi
          refine ⟨i, hil, ?_⟩
          rw [← hi, wire_drop, List.drop_append_of_le_length (by omega), ← nameWire_eq] at ho2
          exact (Render.nameWire_inj (fun l hl => hv.1 l (List.mem_of_mem_drop hl)) hc.2 ho2).symm
        obtain ⟨i, hi, rfl⟩ := key a ha
        obtain ⟨j, hj, rfl⟩ := key b hb
        have hstrict : ∀ i j, i < j → j ≤ ls.length → (nameWire (ls.drop j)).length < (nameWire (ls.drop i)).length := by
          intro i j hij hj
          have h1 : ls.drop i = (ls.drop i).take (j - i) ++ ls.drop j := by
            rw [show ls.drop j = (ls.drop i).drop (j - i) by rw [List.drop_drop]; congr 1; omega, List.take_append_drop]
          rw [h1]
          simp only [nameWire, wire_append, List.length_append]
          have : 0 < (wire ((ls.drop i).take (j - i))).length := by
            rw [List.drop_eq_getElem_cons (by omega), show j - i = (j - i - 1) + 1 by omega, List.take_succ_cons, wire_length_cons]; omega
          omega
        rcases Nat.lt_trichotomy i j with hlt | rfl | hlt
        · have := hstrict i j hlt (by omega); omega
        · rfl
        · have := hstrict j i hlt (by omega); omega
      have hls : ∀ i, i < ls.length → TailSet [Name.ofLabels ls] (ls.drop i) := fun i hi =>
        ⟨by simpa using tails_ofLabels hi, fun l hl => hv.1 l (List.mem_of_mem_drop hl)⟩
      obtain ⟨lu, off, f1, f2, _, f3, f4⟩ := Render.write_name_exact hS hv hls true e2 e3
      have hlu : lu = 0 := by
        by_cases h0 : lu = 0
        · exact h0
        · exfalso
          refine f2 rfl 0 (by omega) hne ?_
          have := e5 hne
          simpa [Render.HasItem] using this
      subst hlu
      have hem : (Render.emitted ls 0 off).length = 2 := by
        rcases f1 with ⟨_, a⟩ | ⟨_, a, _⟩
        · omega
        · simp [Render.emitted, a]
      rw [hem, hlen, e6] at f3 f4
      have hxn : x'.name = Name.ofLabels ls := by rw [ho, hq]
      constructor
      · rintro ⟨r3, g1, g2⟩
        by_cases hfit : m.headSize + 2 ≤ backing.length
        · exfalso
          obtain ⟨r', j1, _⟩ := f3 hfit
          exact body_data k2 k3 e2 (by rw [hxn, j1]) g1 g2
        · omega
      · intro hc
        obtain ⟨j1, j2⟩ := f4 (by omega)
        obtain ⟨rest', k4, k5⟩ := k3
        refine ⟨(Render.write_name (Name.ofLabels ls) true r2).2, ?_, ?_⟩
        · rw [k5, hxn, St.bind_err (s' := (Render.write_name (Name.ofLabels ls) true r2).2) (by rw [← j1])]
        · show (Render.write_name (Name.ofLabels ls) true r2).2.buffer.contents = r2.buffer.contents
          rw [j2]
          have : Render.leftover ls 0 off (backing.length - m.headSize) = [] := by
            unfold Render.leftover; split <;> simp
          rw [this, OutBuf.append_nil]

/-- the hypotheses are met, and the two sizes are right -/
example : sampleMsg.records ≠ [] ∧ sampleMsg.headSize = 19 ∧ sampleMsg.question.name ≠ Name.root ∧
    (sampleMsg.records.map (·.name)) = [sampleMsg.question.name] := by decide +kernel
example : (sampleMsg.to_wire (Render.new (List.replicate 20 0))).1 = .panic ∧ (sampleMsg.to_wire (Render.new (List.replicate 21 0))).1 = .ok 19 := by
  decide +kernel

end R53
