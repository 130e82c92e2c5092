/-
Python runtime vocabulary shared by all models: exceptions as values, the two
interpreter families the project is tested on (tox.ini: py27, py36), Python
slicing and numpy index helpers.
-/

namespace Blmath

/-- Exceptions the modelled code can raise.  Messages are not modelled. -/
inductive PyErr where
  | ValueError | TypeError | KeyError | IndexError | AttributeError
  | AssertionError | ZeroDivisionError | OverflowError | LinAlgError
  | DimensionalityError | LinearDependenceError | StopIteration
  | GenericException | RecursionError
  deriving DecidableEq, Repr

/-- Interpreter family (tox.ini:3, `envlist = py27, py36`). -/
inductive PyVer where
  | py2 | py3
  deriving DecidableEq, Repr

/-- A call either returns a value or raises. -/
abbrev PyM (α : Type) := Except PyErr α

/-- `raise e`. -/
abbrev raise {α : Type} (e : PyErr) : PyM α := Except.error e

@[simp] theorem ok_bind {α β : Type} (a : α) (f : α → PyM β) :
    ((Except.ok a : PyM α) >>= f) = f a := rfl
@[simp] theorem error_bind {α β : Type} (e : PyErr) (f : α → PyM β) :
    ((Except.error e : PyM α) >>= f) = Except.error e := rfl
@[simp] theorem pure_eq_ok {α : Type} (a : α) : (pure a : PyM α) = Except.ok a := rfl
@[simp] theorem map_ok {α β : Type} (f : α → β) (a : α) :
    (f <$> (Except.ok a : PyM α)) = Except.ok (f a) := rfl
@[simp] theorem map_error {α β : Type} (f : α → β) (e : PyErr) :
    (f <$> (Except.error e : PyM α)) = Except.error e := rfl

theorem bind_eq_ok {α β : Type} {x : PyM α} {f : α → PyM β} {b : β} :
    (x >>= f) = Except.ok b ↔ ∃ a, x = Except.ok a ∧ f a = Except.ok b := by
  cases x with
  | ok a => simp
  | error e => simp

/-- the call returned -/
def Returns {α : Type} (x : PyM α) : Prop := ∃ a, x = Except.ok a

/-- the call raised -/
def Raises {α : Type} (x : PyM α) : Prop := ∃ e, x = Except.error e

/-- CPython's normalisation of one slice bound against a sequence of length `n`:
negative bounds count from the end, then clamp into `[0, n]`. -/
def sliceBound (n : Nat) (i : Int) : Nat :=
  if i < 0 then (i + n).toNat else min i.toNat n

/-- `xs[start:stop]` with unit step. -/
def pySlice {α : Type} (xs : List α) (start stop : Int) : List α :=
  (xs.take (sliceBound xs.length stop)).drop (sliceBound xs.length start)

/-- `xs[i]` for one integer index (negative counts from the end). -/
def pyIndex {α : Type} (xs : List α) (i : Int) : PyM α :=
  let j : Int := if i < 0 then i + xs.length else i
  if j < 0 then raise .IndexError
  else match xs[j.toNat]? with
    | some x => .ok x
    | none => raise .IndexError

theorem pyIndex_nat {α : Type} (xs : List α) (i : Nat) :
    pyIndex xs (i : Int) = match xs[i]? with
      | some x => .ok x
      | none => raise .IndexError := by
  have h : ¬ (i : Int) < 0 := by omega
  simp only [pyIndex, h, if_false, Int.toNat_natCast]

theorem pyIndex_of_getElem? {α : Type} {xs : List α} {i : Nat} {x : α} (h : xs[i]? = some x) :
    pyIndex xs (i : Int) = .ok x := by
  rw [pyIndex_nat, h]

end Blmath
