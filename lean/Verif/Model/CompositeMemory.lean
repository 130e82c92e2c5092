import Verif.Model.Composite

/-!
Memory behind the matrices of `blmath/geometry/transform/composite.py`.

`Composite.lean` takes the matrices of a `CompositeTransform` to be values.  In fact they are numpy arrays: `append_transform4` keeps
the arrays it is given, `matrix_for` of exactly one transform hands out the array kept (`forward.T.T` is a view of all of it), and
`convert_44_to_33` hands out a view of a corner.  Everything else is computed into new arrays.  Here memory is a list of cells, each a
4×4 array of floats, and an object holds the numbers of its cells.

Indices of entries are non-negative.  Arguments that are copied in any case are given by their values.
-/

namespace Blmath.Geometry.TMem
open Blmath.Vx
variable {α : Type} [Num α] [Trig α]

/-- memory: the arrays allocated so far -/
abbrev Heap (α : Type) := List (Mat 4 4 α)

/-- the array with a number -/
def cell (h : Heap α) (c : ℕ) : Mat 4 4 α := h[c]?.getD (Mat.eye 4)

/-- an array: a 4×4 array, or the view `[:3, :3]` of one -/
inductive Ref where
  | full (c : ℕ)
  | corner (c : ℕ)

/-- the cell an array is in -/
def Ref.cell : Ref → ℕ
  | .full c => c
  | .corner c => c

/-- the number of rows, and of columns -/
def Ref.size : Ref → ℕ
  | .full _ => 4
  | .corner _ => 3

/-- `a[i, j] = x` -/
def setEntry (m : Mat 4 4 α) (i j : ℕ) (x : α) : Mat 4 4 α :=
  Matrix.of fun a b => if a.val = i ∧ b.val = j then x else m a b

/-- what the transform looks like at the moment: `self.transforms`.  composite.py:72-74 -/
def view (h : Heap α) (st : List (ℕ × ℕ)) : Composite α := st.map fun p => (cell h p.1, cell h p.2)

/-- a program: its memory, and the arrays and transforms it has names for -/
structure World (α : Type) where
  heap : Heap α
  arrs : List Ref
  comps : List (List (ℕ × ℕ))

/-- what a program may do; numbers are names (positions in the lists of the world) -/
inductive Cmd (α : Type) where
  /-- a new 4×4 array -/
  | array (m : Mat 4 4 α)
  /-- `arrs[k][i, j] = x` -/
  | write (k i j : ℕ) (x : α)
  /-- `convert_44_to_33(arrs[k])` -/
  | corner (k : ℕ)
  /-- `CompositeTransform()` -/
  | new
  /-- `comps[t].append_transform4(arrs[f], arrs[r])`, or without the second -/
  | append4 (t f : ℕ) (r : Option ℕ)
  /-- a call of a method with values, which are copied -/
  | call (t : ℕ) (op : TOp α)
  /-- `comps[t].matrix_for(from_range, reverse)` -/
  | matrixFor (t : ℕ) (fromRange : Option (Option ℤ × Option ℤ)) (reverse : Bool)

/-- the transforms selected by a range.  composite.py:103-107 -/
def select {β : Type} (st : List β) (fromRange : Option (Option ℤ × Option ℤ)) : List β :=
  match fromRange with
  | some (start, stop) => pySlice st (start.getD 0) (stop.getD st.length)
  | none => st

namespace World
variable (w : World α)

/-- the cell of a 4×4 array -/
def full? (k : ℕ) : Option ℕ :=
  match w.arrs[k]? with
  | some (.full c) => some c
  | _ => none

/-- `self.transforms.append(...)`.  composite.py:136 -/
def addPair (t : ℕ) (st : List (ℕ × ℕ)) (p : ℕ × ℕ) : World α := { w with comps := w.comps.set t (st ++ [p]) }

/-- a pair of new matrices -/
def addNew (t : ℕ) (st : List (ℕ × ℕ)) (f r : Mat 4 4 α) : World α :=
  ({ w with heap := w.heap ++ [f, r] } : World α).addPair t st (w.heap.length, w.heap.length + 1)

/-- a new array -/
def addArray (m : Mat 4 4 α) : World α := { w with heap := w.heap ++ [m], arrs := w.arrs ++ [.full w.heap.length] }

/-- the array `matrix_for` returns: the one kept if it is only one, otherwise a new one.  composite.py:109-121 -/
def matrixOf (st : List (ℕ × ℕ)) (fromRange : Option (Option ℤ × Option ℤ)) (reverse : Bool) : World α :=
  match select st fromRange with
  | [p] => { w with arrs := w.arrs ++ [.full (if reverse then p.2 else p.1)] }
  | _ => w.addArray (Geometry.matrixFor (view w.heap st) fromRange reverse)

/-- `append_transform4` of arrays.  composite.py:123-138 -/
def append4 (inv : Mat 4 4 α → PyM (Mat 4 4 α)) (t : ℕ) (st : List (ℕ × ℕ)) (f : ℕ) (r : Option ℕ) : World α :=
  match r with
  | some r => w.addPair t st (f, r)
  | none =>
    match inv (cell w.heap f) with
    | .error _ => w
    | .ok m => ({ w with heap := w.heap ++ [m] } : World α).addPair t st (f, w.heap.length)

/-- one command; names that do not exist are ignored, exceptions are caught -/
def step (inv : Mat 4 4 α → PyM (Mat 4 4 α)) (svd : Svd3 α) : Cmd α → World α
  | .array m => w.addArray m
  | .write k i j x => match w.arrs[k]? with
    | none => w
    | some r => if i < r.size ∧ j < r.size then { w with heap := w.heap.set r.cell (setEntry (cell w.heap r.cell) i j x) } else w
  | .corner k => match w.full? k with
    | none => w
    | some c => { w with arrs := w.arrs ++ [.corner c] }
  | .new => { w with comps := w.comps ++ [[]] }
  | .append4 t f r => match w.comps[t]?, w.full? f with
    | some st, some f => match r with
      | none => w.append4 inv t st f none
      | some r => match w.full? r with
        | none => w
        | some r => w.append4 inv t st f (some r)
    | _, _ => w
  | .call t op => match w.comps[t]? with
    | none => w
    | some st => match (stepT inv svd (view w.heap st) op).drop st.length with
      | [(f, r)] => w.addNew t st f r
      | _ => w
  | .matrixFor t fromRange reverse => match w.comps[t]? with
    | none => w
    | some st => w.matrixOf st fromRange reverse

/-- a history -/
def run (inv : Mat 4 4 α → PyM (Mat 4 4 α)) (svd : Svd3 α) (cs : List (Cmd α)) : World α := cs.foldl (fun w c => w.step inv svd c) w

end World

end Blmath.Geometry.TMem
