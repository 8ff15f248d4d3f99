import Verif.Model.Message
import Verif.Model.Text
/-!
# Model of `build` (response_builder.rs:105-140)
-/
namespace R53
namespace Builder

/-- one of the loops response_builder.rs:115-123: `builder.add_rrset(section, RRset::from_strs(rrset.as_slice())?)` for each group of
lines -/
def addGroups (x : Ext) (mode : Build) (t : SectionType) : List (List (List UInt8)) → Response → Res Response
  | [], m => .ok m
  | g :: gs, m => do
    let s ← RRset.from_strs x mode g
    let m ← add_rrset m t s
    addGroups x mode t gs m

/-- response_builder.rs:127-135; `udp_size as u16` keeps the low 16 bits -/
def addEdns (udp_size : Option Nat) (m : Response) : Res Response :=
  match udp_size with
  | some sz => edns m ⟨0, 0, UInt16.ofNat sz, false, none⟩
  | none => .ok m

/-- `build` response_builder.rs:105-135; `id` is the random number of `Response::with_question` (response.rs:112) -/
def build (x : Ext) (mode : Build) (id : UInt16) (name : List UInt8) (typ : RRType)
    (answers authorities additionals : List (List (List UInt8))) (udp_size : Option Nat) : Res Response := do
  let n ← Name.new name
  let m ← addGroups x mode .Answer answers (Response.with_question id n typ)
  let m ← addGroups x mode .Authority authorities m
  let m ← addGroups x mode .Additional additionals m
  let m ← addEdns udp_size m
  pure (done (make_response m))

end Builder
end R53
