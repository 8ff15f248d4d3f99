import Verif.Props.Buffer
/-!
# C20: a buffer that is given new octets
-/
namespace R53

/-- a cursor that is given new octets, after any reads and seeks on any others, behaves as a new one on these octets: the first read takes them from the front, any number up to all of them,
and after any further reads the cursor is inside them -/
theorem c20_set_data (old new : List UInt8) (ops ops' : List ReadOp) :
    ((readRun ops (InBuf.new old)).set_data new).pos = 0 ∧ ((readRun ops (InBuf.new old)).set_data new).data = new ∧
    (∀ n, n ≤ new.length → (InBuf.read_bytes n ((readRun ops (InBuf.new old)).set_data new)).1 = .ok (new.take n)) ∧
    (readRun ops' ((readRun ops (InBuf.new old)).set_data new)).pos ≤ new.length ∧ (readRun ops' ((readRun ops (InBuf.new old)).set_data new)).data = new := by
  have h : (readRun ops (InBuf.new old)).set_data new = InBuf.new new := rfl
  rw [h]
  refine ⟨rfl, rfl, fun n hn => ?_, c20_history new ops'⟩
  rw [(c20_read_bytes (InBuf.new new) ⟨new, 0 + n⟩ (Nat.zero_le _) n (new.take n)).2 ⟨⟨new.drop n, ?_⟩, by simp; omega, rfl⟩]
  simp [InBuf.new, List.take_append_drop]

example : (InBuf.read_bytes 2 ((readRun [.u16, .u8] (InBuf.new [1, 2, 3, 4])).set_data [7, 8, 9])).1 = .ok [7, 8] := by decide

end R53
