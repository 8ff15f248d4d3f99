/-!
# Basic vocabulary: results, panics, state

Rust `Result<T>` and panics become `Res`; `&mut self` methods become `St`.
-/
namespace R53

/-- Outcome of a Rust call: a value, an `Err(_)` (messages dropped), or a panic. -/
inductive Res (α : Type) where
  | ok (a : α)
  | err
  | panic
deriving DecidableEq, Repr

namespace Res

/-- `?`-style sequencing. -/
@[inline] def bind {α β : Type} (x : Res α) (f : α → Res β) : Res β :=
  match x with
  | .ok a => f a
  | .err => .err
  | .panic => .panic

instance : Monad Res where
  pure := .ok
  bind := Res.bind

@[simp] theorem bind_ok {α β : Type} (a : α) (f : α → Res β) : (Res.ok a >>= f) = f a := rfl
@[simp] theorem bind_err {α β : Type} (f : α → Res β) : ((Res.err : Res α) >>= f) = .err := rfl
@[simp] theorem bind_panic {α β : Type} (f : α → Res β) : ((Res.panic : Res α) >>= f) = .panic := rfl
@[simp] theorem pure_eq {α : Type} (a : α) : (pure a : Res α) = .ok a := rfl

/-- `map` of a Rust `Result`. -/
def map' {α β : Type} (f : α → β) : Res α → Res β
  | .ok a => .ok (f a)
  | .err => .err
  | .panic => .panic

end Res

/-- `ensure!(c, ..)` of anyhow. -/
def ensure (c : Prop) [Decidable c] : Res Unit := if c then .ok () else .err

/-- `assert!(c)`. -/
def assertR (c : Prop) [Decidable c] : Res Unit := if c then .ok () else .panic

@[simp] theorem ensure_bind_ok {α : Type} {c : Prop} [Decidable c] (h : c) (f : Unit → Res α) :
    (ensure c >>= f) = f () := by simp [ensure, h]
@[simp] theorem ensure_bind_err {α : Type} {c : Prop} [Decidable c] (h : ¬ c) (f : Unit → Res α) :
    (ensure c >>= f) = .err := by simp [ensure, h]
@[simp] theorem assertR_bind_ok {α : Type} {c : Prop} [Decidable c] (h : c) (f : Unit → Res α) :
    (assertR c >>= f) = f () := by simp [assertR, h]
@[simp] theorem assertR_bind_panic {α : Type} {c : Prop} [Decidable c] (h : ¬ c) (f : Unit → Res α) :
    (assertR c >>= f) = .panic := by simp [assertR, h]

/-- inversion of a successful sequence -/
theorem Res.bind_eq_ok {α β : Type} {x : Res α} {f : α → Res β} {b : β} :
    (x >>= f) = .ok b ↔ ∃ a, x = .ok a ∧ f a = .ok b := by
  cases x <;> simp

theorem ensure_eq_ok {c : Prop} [Decidable c] {u : Unit} : ensure c = .ok u ↔ c := by
  unfold ensure; split <;> simp_all
theorem assertR_eq_ok {c : Prop} [Decidable c] {u : Unit} : assertR c = .ok u ↔ c := by
  unfold assertR; split <;> simp_all

/-- `v[i]` on a slice or `Vec`: panics out of range. -/
def idx {α : Type} (l : List α) (i : Nat) : Res α :=
  match l[i]? with
  | some a => .ok a
  | none => .panic

/-- `&v[a..b]`: panics unless `a ≤ b ≤ len`. -/
def slice {α : Type} (l : List α) (a b : Nat) : Res (List α) :=
  if a ≤ b ∧ b ≤ l.length then .ok ((l.drop a).take (b - a)) else .panic

/-- unsigned subtraction with overflow check. -/
def csub (a b : Nat) : Res Nat := if b ≤ a then .ok (a - b) else .panic

/-- `u8` addition with overflow check. -/
def cadd8 (a b : Nat) : Res Nat := if a + b < 256 then .ok (a + b) else .panic

theorem idx_ok {α : Type} {l : List α} {i : Nat} {a : α} (h : l[i]? = some a) : idx l i = .ok a := by
  simp [idx, h]

theorem idx_of_lt {α : Type} {l : List α} {i : Nat} (h : i < l.length) : idx l i = .ok l[i] := by
  simp [idx, h]

theorem slice_ok {α : Type} {l : List α} {a b : Nat} (h1 : a ≤ b) (h2 : b ≤ l.length) :
    slice l a b = .ok ((l.drop a).take (b - a)) := by simp [slice, h1, h2]

theorem csub_ok {a b : Nat} (h : b ≤ a) : csub a b = .ok (a - b) := by simp [csub, h]
theorem cadd8_ok {a b : Nat} (h : a + b < 256) : cadd8 a b = .ok (a + b) := by simp [cadd8, h]

/-- A method on `&mut σ`: the state after `Err` or panic is kept. -/
def St (σ α : Type) := σ → Res α × σ

namespace St
variable {σ α β : Type}

@[inline] def run (m : St σ α) (s : σ) : Res α × σ := m s

instance : Monad (St σ) where
  pure a := fun s => (.ok a, s)
  bind m f := fun s =>
    match m s with
    | (.ok a, s') => f a s'
    | (.err, s') => (.err, s')
    | (.panic, s') => (.panic, s')

/-- a computation that does not touch the state -/
def lift (r : Res α) : St σ α := fun s => (r, s)
def get : St σ σ := fun s => (.ok s, s)
def put (s : σ) : St σ Unit := fun _ => (.ok (), s)
def fail : St σ α := fun s => (.err, s)
def boom : St σ α := fun s => (.panic, s)

theorem bind_apply (m : St σ α) (f : α → St σ β) (s : σ) :
    (m >>= f) s = match m s with
      | (.ok a, s') => f a s'
      | (.err, s') => (.err, s')
      | (.panic, s') => (.panic, s') := rfl

@[simp] theorem pure_apply (a : α) (s : σ) : (pure a : St σ α) s = (.ok a, s) := rfl
@[simp] theorem lift_apply (r : Res α) (s : σ) : (lift r : St σ α) s = (r, s) := rfl
@[simp] theorem get_apply (s : σ) : (get : St σ σ) s = (.ok s, s) := rfl
@[simp] theorem put_apply (s t : σ) : (put t : St σ Unit) s = (.ok (), t) := rfl
@[simp] theorem fail_apply (s : σ) : (fail : St σ α) s = (.err, s) := rfl
@[simp] theorem boom_apply (s : σ) : (boom : St σ α) s = (.panic, s) := rfl

theorem bind_ok {m : St σ α} {f : α → St σ β} {s s' : σ} {a : α} (h : m s = (.ok a, s')) :
    (m >>= f) s = f a s' := by simp [bind_apply, h]
theorem bind_err {m : St σ α} {f : α → St σ β} {s s' : σ} (h : m s = (.err, s')) :
    (m >>= f) s = (.err, s') := by simp [bind_apply, h]
theorem bind_panic {m : St σ α} {f : α → St σ β} {s s' : σ} (h : m s = (.panic, s')) :
    (m >>= f) s = (.panic, s') := by simp [bind_apply, h]

theorem get_bind (f : σ → St σ β) (s : σ) : ((St.get : St σ σ) >>= f) s = f s s := rfl
theorem put_bind (t : σ) (f : Unit → St σ β) (s : σ) : ((St.put t : St σ Unit) >>= f) s = f () t := rfl
theorem lift_ok_bind {r : Res α} {a : α} (h : r = .ok a) (f : α → St σ β) (s : σ) :
    ((St.lift r : St σ α) >>= f) s = f a s := by rw [h]; rfl
theorem lift_err_bind {r : Res α} (h : r = .err) (f : α → St σ β) (s : σ) :
    ((St.lift r : St σ α) >>= f) s = (.err, s) := by rw [h]; rfl

/-- inversion of a successful sequence -/
theorem bind_ok_inv {m : St σ α} {f : α → St σ β} {s s'' : σ} {b : β}
    (h : (m >>= f) s = (.ok b, s'')) : ∃ a s', m s = (.ok a, s') ∧ f a s' = (.ok b, s'') := by
  rw [bind_apply] at h
  match hm : m s with
  | (.ok a, s') => rw [hm] at h; exact ⟨a, s', rfl, h⟩
  | (.err, s') => rw [hm] at h; simp at h
  | (.panic, s') => rw [hm] at h; simp at h

end St

end R53
