import Verif.Proofs.Wider
import Verif.Props.Seek
import Verif.Props.Blind
/-!
# C108: a larger buffer never hurts

What is sent in some buffer is sent in every larger one too: the same octets, or, if the smaller buffer had only room for the
truncated message, either the same or all of it.
-/
namespace R53

/-! ## calls -/

/-- what can be written through a renderer: its own calls, and the headers, questions, records and sections of messages -/
inductive RPiece where
  | op (o : ROp) | truncate (p : Nat) | header (h : Header) | question (q : Question) | rrset (s : RRset) | section_ (s : Section)

def RPiece.write : RPiece → St Render Unit
  | .op o => o.step
  | .truncate p => Render.truncate p
  | .header h => h.to_wire
  | .question q => q.to_wire
  | .rrset s => s.to_wire
  | .section_ s => Section.to_wire s

/-- one after the other, until one of them does not succeed -/
def writePieces : List RPiece → St Render Unit
  | [] => pure ()
  | p :: ps => fun r => match p.write r with
    | (.ok _, r') => writePieces ps r'
    | x => x

theorem RPiece.wider (p : RPiece) : Wider p.write := by
  cases p with
  | op o => cases o with
    | name n c => exact Render.wider_name n c
    | u8 d => exact Render.wider_u8 d
    | u16 d => exact Render.wider_u16 d
    | u32 d => exact Render.wider_u32 d
    | bytes d => exact Render.wider_bytes d
    | skip n => exact Render.wider_skip n
    | u8At p d => exact Render.wider_u8_at p d
    | u16At p d => exact Render.wider_u16_at p d
  | truncate p => exact Render.wider_truncate p
  | header h => exact h.wider
  | question q => exact q.wider
  | rrset s => exact s.wider
  | section_ s => exact Section.wider s

theorem wider_all (ps : List RPiece) : Wider (writePieces ps) := by
  induction ps with
  | nil => exact Wider.pure ()
  | cons p ps ih =>
    intro t r a r' hi h
    unfold writePieces at h ⊢
    rcases hp : p.write r with ⟨x | _ | _, r1⟩
    · rw [hp] at h
      simp only at h
      obtain ⟨k1, k2⟩ := p.wider t _ _ _ hi hp
      rw [k2]
      exact ih t _ _ _ k1 h
    · rw [hp] at h; simp at h
    · rw [hp] at h; simp at h

theorem new_wide (b t : List UInt8) : (Render.new b).wide t = Render.new (b ++ t) := rfl
theorem new_inv (b : List UInt8) : (Render.new b).buffer.Inv := Nat.zero_le _

theorem Wider.fresh {α : Type} {w : St Render α} (h : Wider w) {b t : List UInt8} {a : α} {r : Render} (hw : w (Render.new b) = (.ok a, r)) :
    ∃ r', w (Render.new (b ++ t)) = (.ok a, r') ∧ r'.data = r.data := by
  obtain ⟨k1, k2⟩ := h t _ _ _ (new_inv b) hw
  exact ⟨r.wide t, by rw [← new_wide]; exact k2, Render.wide_data k1 t⟩

/-- **C108**, calls: any calls whatever, with any arguments and in any order, that succeed on a buffer succeed when the buffer goes
on behind its end, with the same octets -/
theorem c108_calls (ps : List RPiece) (b t : List UInt8) (r : Render) (h : writePieces ps (Render.new b) = (.ok (), r)) :
    ∃ r', writePieces ps (Render.new (b ++ t)) = (.ok (), r') ∧ r'.data = r.data :=
  (wider_all ps).fresh h

/-! ## messages -/

/-- **C108**, responses, whatever their names: what succeeds in a buffer succeeds in every larger one, and sends the same octets
unless those sent in the smaller one were the truncated message -/
theorem c108_response (m : Response) (hm : m.Typed) (small large : List UInt8) (h : small.length ≤ large.length) (n : Nat) (r : Render)
    (hw : m.to_wire (Render.new small) = (.ok n, r)) :
    ∃ n' r', m.to_wire (Render.new large) = (.ok n', r') ∧
      ((n' = n ∧ r'.data = r.data) ∨ (m.records ≠ [] ∧ r.data = m.cut.encodedBy .table ∧ ∃ x, m.written = some x ∧ r'.data = x.octets)) := by
  obtain ⟨e1, e2, e3⟩ := c73_cases m hm small
  obtain ⟨l1, l2, l3⟩ := c73_cases m hm large
  have a1 : m.headSize ≤ small.length := by
    by_cases c : small.length < m.headSize
    · rw [hw] at e1; exact absurd (e1.mpr c) (by simp)
    · omega
  have a2 : m.records ≠ [] → m.headSize + m.firstPiece .table ≤ small.length := fun hr => by
    by_cases c : small.length < m.headSize + m.firstPiece .table
    · rw [hw] at e2; exact absurd (e2.mpr ⟨hr, a1, c⟩) (by simp)
    · omega
  have hok : ∃ n' r', m.to_wire (Render.new large) = (.ok n', r') := by
    rcases hl : m.to_wire (Render.new large) with ⟨x | _ | _, r'⟩
    · exact ⟨x, r', rfl⟩
    · rw [hl] at l1; have := l1.mp rfl; omega
    · rw [hl] at l2
      obtain ⟨c1, c2, c3⟩ := l2.mp rfl
      have := a2 c1; omega
  obtain ⟨n', r', hl⟩ := hok
  refine ⟨n', r', hl, ?_⟩
  obtain ⟨s1, s2⟩ := e3 n r hw
  obtain ⟨t1, t2⟩ := l3 n' r' hl
  rcases s2 with ⟨x, b1, b2, b3⟩ | ⟨b1, b2, b3⟩
  · rcases t2 with ⟨y, c1, c2, c3⟩ | ⟨c1, _, _⟩
    · rw [b1] at c1
      obtain rfl := Option.some.inj c1
      exact Or.inl ⟨by rw [s1, t1, b3, c3], by rw [b3, c3]⟩
    · have := c1 x b1; omega
  · rcases t2 with ⟨y, c1, c2, c3⟩ | ⟨c1, _, c3⟩
    · exact Or.inr ⟨b2, b3, y, c1, c3⟩
    · exact Or.inl ⟨by rw [s1, t1, b3, c3], by rw [b3, c3]⟩

/-- in particular a message that arrived whole arrives whole, in the same octets, from every larger buffer -/
theorem c108_whole (m : Response) (small large : List UInt8) (h : small.length ≤ large.length) (hm : m.FitsIn small.length) (n : Nat) (r : Render)
    (hw : m.to_wire (Render.new small) = (.ok n, r)) (hd : Response.from_wire r.data = .ok m) :
    ∃ r', m.to_wire (Render.new large) = (.ok n, r') ∧ r'.data = r.data := by
  have ht := hm.typed
  obtain ⟨x, a, b⟩ := (c44_whole_iff m small hm).mp ⟨n, r, hw, hd⟩
  obtain ⟨r1, e1, e2⟩ := (c73_exact m ht small).1 x a b
  obtain ⟨r2, f1, f2⟩ := (c73_exact m ht large).1 x a (by omega)
  rw [hw] at e1
  simp only [Prod.mk.injEq, Res.ok.injEq] at e1
  obtain ⟨rfl, rfl⟩ := e1
  exact ⟨r2, f1, by rw [e2, f2]⟩

/-- **C108**, threshold: for every message there are a size and some octets such that the message is sent whole exactly in the
buffers of that size or more, and always in these octets; or it is sent whole in no buffer (`c44_refused_violated`) -/
theorem c108_threshold (m : Response) (hm : m.Fits) :
    (∃ size octets, ∀ backing, ((∃ n r, m.to_wire (Render.new backing) = (.ok n, r) ∧ Response.from_wire r.data = .ok m) ↔ size ≤ backing.length) ∧
        (size ≤ backing.length → ∃ r, m.to_wire (Render.new backing) = (.ok octets.length, r) ∧ r.data = octets)) ∨
      ∀ backing, ¬ ∃ n r, m.to_wire (Render.new backing) = (.ok n, r) ∧ Response.from_wire r.data = .ok m := by
  cases hx : m.written with
  | none =>
    refine Or.inr fun backing h => ?_
    obtain ⟨x, a, _⟩ := (c44_whole_iff m backing (hm.fitsIn _)).mp h
    rw [hx] at a; simp at a
  | some x =>
    refine Or.inl ⟨x.room, x.octets, fun backing => ?_⟩
    rw [c44_whole_iff m backing (hm.fitsIn _)]
    refine ⟨⟨?_, fun b => ⟨x, hx, b⟩⟩, fun b => (c73_exact m (hm.fitsIn backing.length).typed backing).1 x hx b⟩
    rintro ⟨y, a, b⟩
    obtain rfl := Option.some.inj (hx.symm.trans a)
    exact b

/-- queries -/
theorem c108_request (q : Request) (hq : ∃ ls, ValidName ls ∧ q.question.name = Name.ofLabels ls) (small large : List UInt8)
    (h : small.length ≤ large.length) (n : Nat) (r : Render) (hw : q.to_wire (Render.new small) = (.ok n, r)) :
    ∃ r', q.to_wire (Render.new large) = (.ok n, r') ∧ r'.data = r.data := by
  obtain ⟨r1, e1, e2⟩ := q.wider.fresh (t := large.drop small.length) hw
  obtain ⟨f1, f2⟩ := c94_request q hq (small ++ large.drop small.length) large (by rw [List.length_append, List.length_drop]; omega)
  rw [e1] at f1 f2
  rcases hl : q.to_wire (Render.new large) with ⟨x, r2⟩
  rw [hl] at f1 f2
  simp only at f1 f2
  subst f1
  exact ⟨r2, rfl, by rw [← f2 n rfl, e2]⟩

/-- NOTIFY requests -/
theorem c108_notify (q : NotifyRequest) (hq : ∃ ls, ValidName ls ∧ q.question.name = Name.ofLabels ls) (hs : ∀ s, q.soa = some s → s.Typed)
    (small large : List UInt8) (h : small.length ≤ large.length) (n : Nat) (r : Render) (hw : q.to_wire (Render.new small) = (.ok n, r)) :
    ∃ r', q.to_wire (Render.new large) = (.ok n, r') ∧ r'.data = r.data := by
  obtain ⟨r1, e1, e2⟩ := q.wider.fresh (t := large.drop small.length) hw
  obtain ⟨f1, f2⟩ := c94_notify q hq hs (small ++ large.drop small.length) large (by rw [List.length_append, List.length_drop]; omega)
  rw [e1] at f1 f2
  rcases hl : q.to_wire (Render.new large) with ⟨x, r2⟩
  rw [hl] at f1 f2
  simp only at f1 f2
  subst f1
  exact ⟨r2, rfl, by rw [← f2 n rfl, e2]⟩

/-! ## samples -/

/-- a message that is sent cut, then whole, then whole again as the buffer grows -/
theorem c108_example : sampleMsg.Fits ∧ (sampleMsg.to_wire (Render.new (List.replicate 30 0))).1 = .ok 19 ∧
    (sampleMsg.to_wire (Render.new (List.replicate 35 0))).1 = .ok 35 ∧
    (sampleMsg.to_wire (Render.new (List.replicate 64 0))).2.data = (sampleMsg.to_wire (Render.new (List.replicate 35 0))).2.data ∧
    (writePieces [.op (.name (Name.ofLabels [[97]]) true), .op (.skip 2), .op (.u16At 3 7), .op (.name (Name.ofLabels [[97]]) true), .truncate 6]
      (Render.new [9, 9, 9, 9, 9, 9, 9])).1 = .ok () :=
  ⟨sampleMsg_fits, by decide +kernel, by decide +kernel, by decide +kernel, by decide +kernel⟩

end R53
