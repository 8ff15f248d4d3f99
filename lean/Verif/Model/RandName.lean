import Verif.Model.Name
/-!
# Model of `rand_name_generator.rs`

The random source is an arbitrary sequence of numbers `o`; the state is how many have been drawn. Every outcome of the draws is the
outcome for some `o`.
-/
namespace R53.RandName

/-- rand_name_generator.rs:5-6 (the backslash at the line end skips the line feed and the blanks after it) -/
def VALID_DOMAIN_CHAR : List UInt8 :=
  [97, 98, 99, 100, 101, 102, 103, 104, 105, 106, 107, 108, 109, 110, 111, 112, 113, 114, 115, 116, 117, 118, 119, 120, 121, 122,
   48, 49, 50, 51, 52, 53, 54, 55, 56, 57, 45]

/-- `rng.gen_range(lo..hi)`: panics on an empty range (rand_name_generator.rs:21, 29, 30, 41) -/
def gen_range (o : Nat → Nat) (lo hi : Nat) : St Nat Nat := fun k =>
  if lo < hi then (.ok (lo + o k % (hi - lo)), k + 1) else (.panic, k)

/-- rand_name_generator.rs:18-25 -/
def gen_label (o : Nat → Nat) : Nat → St Nat (List UInt8)
  | 0 => pure []
  | len + 1 => do
    let index ← gen_range o 0 VALID_DOMAIN_CHAR.length
    let c ← St.lift (idx VALID_DOMAIN_CHAR index)
    let rest ← gen_label o len
    pure (c :: rest)

/-- the length of the next label, rand_name_generator.rs:37-43 -/
def label_len (o : Nat → Nat) (max_label_len : Nat) (is_last_label : Bool) : St Nat Nat :=
  if max_label_len = 1 then pure 1
  else if is_last_label then pure max_label_len
  else gen_range o 1 max_label_len

/-- what is pushed after a label and the new length, rand_name_generator.rs:47-56 -/
def after_label (o : Nat → Nat) (len generated_len label_len max_label_len : Nat) (is_last_label : Bool) :
    St Nat (List UInt8 × Nat) := do
  if generated_len < len then
    if generated_len + 1 = len then
      if label_len < max_label_len then do
        let c ← gen_label o 1
        let g ← St.lift (cadd8 generated_len 1)
        pure (c, g)
      else pure ([], generated_len)
    else if is_last_label = false then do
      let g ← St.lift (cadd8 generated_len 1)
      pure ([46], g)
    else pure ([], generated_len)
  else pure ([], generated_len)

/-- the loop rand_name_generator.rs:34-61; the first argument is the number of labels still to come, 1 for the last -/
def genLoop (o : Nat → Nat) (len : Nat) : Nat → Nat → List UInt8 → St Nat (List UInt8)
  | 0, _, name => pure name
  | left + 1, generated_len, name => do
    let room ← St.lift (csub len generated_len)
    let max_label_len := min MAX_LABEL_LEN room
    let n ← label_len o max_label_len (left == 0)
    let l ← gen_label o n
    let g ← St.lift (cadd8 generated_len n)
    let (more, g) ← after_label o len g n max_label_len (left == 0)
    if g = len then pure (name ++ l ++ more)
    else genLoop o len left g (name ++ l ++ more)

/-- rand_name_generator.rs:28-63 -/
def gen_name_string (o : Nat → Nat) : St Nat (List UInt8) := do
  let len ← gen_range o 1 (MAX_WIRE_LEN - 1)
  let label_count ← gen_range o 1 (MAX_LABEL_COUNT + 1)
  genLoop o len label_count 0 []

/-- `Iterator::next` rand_name_generator.rs:68-70; the `unwrap` panics if the text is refused -/
def next (o : Nat → Nat) : St Nat Name := do
  let t ← gen_name_string o
  match Name.new t with
  | .ok n => pure n
  | _ => St.boom

/-- the first `n` names (rand_name_generator.rs:66-71) -/
def take (o : Nat → Nat) : Nat → St Nat (List Name)
  | 0 => pure []
  | n + 1 => do
    let x ← next o
    let xs ← take o n
    pure (x :: xs)

end R53.RandName
