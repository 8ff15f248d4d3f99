import Verif.Spec.Tree
import Verif.Spec.Present
import Verif.Spec.Text
/-!
# What a printed domain tree shows
-/
namespace R53

/-- five blanks for every level -/
def blanks (depth : Nat) : List UInt8 := List.replicate (5 * depth) 32

namespace Tr
variable {T : Type}

/-- the text of the labels of the top node -/
def title : Tr T → List UInt8
  | nil => []
  | node i _ _ _ => joinDots (i.labels.map present)

/-- the line of a node, then the level below it between two lines with the name of its root, then its left and right neighbours; a missing
neighbour is the line `NULL` -/
def drawn (side : String) (sub : Bool) (depth : Nat) : Tr T → List UInt8
  | nil => blanks depth ++ ascii "NULL\n"
  | node i l d r =>
    blanks depth ++ ascii side ++ joinDots (i.labels.map present) ++ ascii (if i.red then " (Red)" else " (Black)") ++
      ascii (if i.value.isSome then "" else "[invisible]") ++ ascii (if sub then " [subtreeroot]\n" else "\n") ++
      (if d.ptr = 0 then [] else
        blanks (depth + 1) ++ ascii "begin down from " ++ d.title ++ ascii "\n\n" ++ d.drawn "" true (depth + 1) ++
        blanks (depth + 1) ++ ascii "end down from " ++ d.title ++ ascii "\n") ++
      l.drawn "left>" false (depth + 1) ++ r.drawn "right>" false (depth + 1)

/-- the tree without addresses, user flags and values, only whether there is one -/
def sketch : Tr T → Tr Unit
  | nil => nil
  | node i l d r => node ⟨0, i.red, false, false, i.labels, i.value.map fun _ => ()⟩ l.sketch d.sketch r.sketch

/-- the nodes of all levels -/
def infos : Tr T → List (Info T)
  | nil => []
  | node i l d r => i :: (l.infos ++ d.infos ++ r.infos)

/-- every node has a run of labels and an address -/
def Runs : Tr T → Prop
  | nil => True
  | node i l d r => i.addr ≠ 0 ∧ IsRun i.labels ∧ l.Runs ∧ d.Runs ∧ r.Runs

end Tr
end R53
