import Verif.Spec.Name
/-!
# Names whose pointers go straight to a label

`Straight octet p ls`: the octets from `p` on spell the name `ls`, and every compression pointer met on the way leads backwards to the length
octet of a label: never to another pointer, never to a root. RFC 1035 §4.1.4 speaks of "a pointer to a prior occurance of the same name";
some readers refuse a pointer to a pointer.
-/
namespace R53

inductive Straight (octet : Nat → Option UInt8) : Nat → List Label → Prop
  | root {p} : octet p = some 0 → Straight octet p []
  | label {p l ls} : 1 ≤ l.length → l.length ≤ 63 → octet p = some (UInt8.ofNat l.length) →
      (∀ i (h : i < l.length), octet (p + 1 + i) = some l[i]) → Straight octet (p + 1 + l.length) ls → Straight octet p (l :: ls)
  | pointer {p t c ls} : octet p = some (UInt8.ofNat (192 + t / 256)) → octet (p + 1) = some (UInt8.ofNat (t % 256)) → t < 16384 → t < p →
      octet t = some c → 1 ≤ c.toNat → c.toNat ≤ 63 → Straight octet t ls → Straight octet p ls

end R53
