/-! # Specification of hexadecimal text -/
namespace R53.HexSpec

/-- value of a hexadecimal digit character, either case -/
def val (c : UInt8) : Option Nat :=
  match c.toNat with
  | 48 => some 0 | 49 => some 1 | 50 => some 2 | 51 => some 3 | 52 => some 4 | 53 => some 5
  | 54 => some 6 | 55 => some 7 | 56 => some 8 | 57 => some 9
  | 65 => some 10 | 66 => some 11 | 67 => some 12 | 68 => some 13 | 69 => some 14 | 70 => some 15
  | 97 => some 10 | 98 => some 11 | 99 => some 12 | 100 => some 13 | 101 => some 14 | 102 => some 15
  | _ => none

def white (c : UInt8) : Prop := c = 0x20 ∨ c = 0x0d ∨ c = 0x0a ∨ c = 0x09

instance (c : UInt8) : Decidable (white c) := by unfold white; infer_instance

/-- `Spells s b`: the text `s`, white space ignored, spells the octets `b` two digits each -/
inductive Spells : List UInt8 → List UInt8 → Prop
  | nil : Spells [] []
  | white {c s b} : white c → Spells s b → Spells (c :: s) b
  /-- two digits `h`, `l` with white space `ws` between them -/
  | byte {h l s b ws hv lv} : (∀ c ∈ ws, white c) → val h = some hv → val l = some lv → Spells s b →
      Spells (h :: (ws ++ l :: s)) (UInt8.ofNat (16 * hv + lv) :: b)

end R53.HexSpec
