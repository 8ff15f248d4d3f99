import Verif.Spec.Layout
import Verif.Spec.Message
/-!
# The layout of the documents has the fields of the structs
-/
namespace R53

def FieldShape (v : FieldVal) : Codec → Prop
  | .name => ∃ x, v = .name x
  | .ipv4 => ∃ x, v = .ip x
  | .ipv6 => ∃ x, v = .ip x
  | .u8 => ∃ x, v = .u8 x
  | .u16 => ∃ x, v = .u16 x
  | .u32 => ∃ x, v = .u32 x
  | .rrtype => ∃ x, v = .rrtype x
  | .text => ∃ x, v = .text x
  | .byte_binary => ∃ x, v = .bytes x
  | .binary => ∃ x, v = .bytes x

def FieldsShape : List (Codec × Disp) → List FieldVal → Prop
  | [], vs => vs = []
  | c :: cs, vs => ∃ v vs', vs = v :: vs' ∧ FieldShape v c.1 ∧ FieldsShape cs vs'

theorem FieldTyped.shape {c : Codec} {v : FieldVal} (h : FieldTyped c v) : FieldShape v c := by
  cases c <;> cases v <;> simp only [FieldTyped] at h <;> exact ⟨_, rfl⟩

theorem FieldsTyped.shape {cs : List (Codec × Disp)} {vs : List FieldVal} (h : FieldsTyped cs vs) : FieldsShape cs vs := by
  induction cs generalizing vs with
  | nil =>
    cases vs with
    | nil => rfl
    | cons v vs => simp [FieldsTyped] at h
  | cons c cs ih =>
    cases vs with
    | nil => simp [FieldsTyped] at h
    | cons v vs => exact ⟨v, vs, rfl, h.1.shape, ih h.2⟩

/-- values that have a layout are the fields of the struct -/
theorem layout_shape {W : Type} {w : Writing W} {t : RRType} {vs : List FieldVal} {fs : List W} (h : layout w t vs = some fs) :
    ∃ cs, schema t = some cs ∧ FieldsShape cs vs := by
  unfold layout at h
  split at h
  all_goals first
    | (simp at h; done)
    | (refine ⟨_, rfl, ?_⟩
       repeat first | exact rfl | refine ⟨_, _, rfl, ⟨_, rfl⟩, ?_⟩)

end R53
