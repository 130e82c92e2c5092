import Verif.Model.Value

/-!
Client programs over `Value`: a store of values and arbitrary sequences of public operations on
them.  An operation that raises leaves the store unchanged; every `Value` it returns (also inside
lists) is appended.
-/

namespace Blmath.Spec

/-- an argument: a number, a stored value, or an iterable of arguments -/
inductive Arg where
  | num (x : ℝ)
  | ref (i : ℕ)
  | list (xs : List Arg)

/-- public operations -/
inductive Cmd where
  | new (v : Option ℝ) (u : Option String)
  | assign (i : ℕ) (v : Option ℝ)
  | assignUnits (i : ℕ) (u : Option String)
  | convert (i : ℕ) (u : Option String)
  | attr (i : ℕ) (name : String)
  | systemDefault (i : ℕ) (system : String)
  | add (i : ℕ) (a : Arg)
  | sub (i : ℕ) (a : Arg)
  | rsub (i : ℕ) (a : Arg)
  | mul (i : ℕ) (a : Arg)
  | div (i : ℕ) (a : Arg)
  | floordiv (i : ℕ) (a : Arg)
  | neg (i : ℕ)
  | abs (i : ℕ)
  | pos (i : ℕ)

mutual
/-- look up the stored values an argument mentions; `none` if one does not exist -/
def Arg.resolve (st : List (Value ℝ)) : Arg → Option (Operand ℝ)
  | .num x => some (.num x)
  | .ref i => (st[i]?).map .val
  | .list xs => (Arg.resolveList st xs).map .list
/-- elementwise -/
def Arg.resolveList (st : List (Value ℝ)) : List Arg → Option (List (Operand ℝ))
  | [] => some []
  | x :: xs => do
    let y ← Arg.resolve st x
    let ys ← Arg.resolveList st xs
    pure (y :: ys)
end

mutual
/-- all `Value`s inside a result -/
def valuesOf : Operand ℝ → List (Value ℝ)
  | .num _ => []
  | .val v => [v]
  | .list xs => valuesOfList xs
/-- elementwise -/
def valuesOfList : List (Operand ℝ) → List (Value ℝ)
  | [] => []
  | x :: xs => valuesOf x ++ valuesOfList xs
end

/-- the values returned by a call -/
def results : PyM (Operand ℝ) → List (Value ℝ)
  | .ok r => valuesOf r
  | .error _ => []

/-- the value returned by a call -/
def result : PyM (Value ℝ) → List (Value ℝ)
  | .ok r => [r]
  | .error _ => []

/-- the values one command returns -/
noncomputable def Cmd.outputs (st : List (Value ℝ)) : Cmd → List (Value ℝ)
  | .new v u => result (Value.make v u)
  | .assign _ _ => []
  | .assignUnits _ _ => []
  | .convert i u => match st[i]? with | some x => result (x.convert u) | none => []
  | .attr i n => match st[i]? with | some x => result (x.getattr n) | none => []
  | .systemDefault i s => match st[i]? with
    | some x => result (x.convertToSystemDefault s) | none => []
  | .add i a => match st[i]?, a.resolve st with
    | some x, some y => results (x.add y) | _, _ => []
  | .sub i a => match st[i]?, a.resolve st with
    | some x, some y => results (x.sub y) | _, _ => []
  | .rsub i a => match st[i]?, a.resolve st with
    | some x, some y => results (x.rsub y) | _, _ => []
  | .mul i a => match st[i]?, a.resolve st with
    | some x, some y => results (x.mul y) | _, _ => []
  | .div i a => match st[i]?, a.resolve st with
    | some x, some y => result (x.truediv y) | _, _ => []
  | .floordiv i a => match st[i]?, a.resolve st with
    | some x, some y => result (x.floordiv y) | _, _ => []
  | .neg i => match st[i]? with | some x => result x.neg | none => []
  | .abs i => match st[i]? with | some x => result x.abs | none => []
  | .pos i => match st[i]? with | some x => result x.pos | none => []

/-- One command.  `+x` and a conversion of `x` to the unit it has return `x` itself: here a copy is added to the store,
and the program can go on using the number of `x`, whose assignments are seen by both. -/
noncomputable def Cmd.exec (st : List (Value ℝ)) (c : Cmd) : List (Value ℝ) :=
  match c with
  | .assign i v => match st[i]? with
    | some x => match x.setValue v with
      | .ok x' => st.set i x'
      | .error _ => st
    | none => st
  | .assignUnits i u => match st[i]? with
    | some x => st.set i (x.setUnits u)
    | none => st
  | c => st ++ c.outputs st

/-- the labels assigned with the `units` setter -/
def Cmd.labels : Cmd → List (Option String)
  | .assignUnits _ u => [u]
  | _ => []

/-- a program, started with no values -/
noncomputable def runCmds (cs : List Cmd) : List (Value ℝ) := cs.foldl Cmd.exec []

end Blmath.Spec
