import Verif.Model.Plane
import Verif.Model.Box

/-!
Memory behind the arrays of `blmath/geometry/primitives/plane.py` and `box.py`.

`Plane.lean` and `Box.lean` take the points and vectors they hold to be values.  In fact they are numpy arrays, which may be the
caller's own: `np.asarray` and `as_numeric_array` do not copy an array, and `reference_point`, `normal`, `origin` and `shape` hand
out the array held.  Here memory is a list of cells, each an array of three floats, and an object holds the numbers of its cells.

Arrays are arrays of three floats; whatever else is given (lists, tuples) is copied.  Indices are non-negative.
-/

namespace Blmath.Geometry.PMem
variable {α : Type} [Num α]

/-- memory: the arrays allocated so far -/
abbrev Heap (α : Type) := List (V3 α)

/-- the array with a number -/
def cell (h : Heap α) (c : ℕ) : V3 α := h[c]?.getD ⟨Num.lit 0, Num.lit 0, Num.lit 0⟩

/-- `a[i] = x` -/
def setEntry (v : V3 α) (i : ℕ) (x : α) : PyM (V3 α) :=
  match i with
  | 0 => .ok { v with x := x }
  | 1 => .ok { v with y := x }
  | 2 => .ok { v with z := x }
  | _ => raise .IndexError

/-- a `Plane` object: where its `_r0` and its `_n` are.  plane.py:21-22 -/
structure PlaneObj where
  r0 : ℕ
  n : ℕ

/-- a `Box` object: where its `origin` and its `shape` are.  box.py:16-17 -/
structure BoxObj where
  origin : ℕ
  shape : ℕ

/-- what the plane looks like at the moment -/
def PlaneObj.view (h : Heap α) (o : PlaneObj) : Plane α := ⟨cell h o.r0, cell h o.n⟩

/-- what the box looks like at the moment -/
def BoxObj.view (h : Heap α) (o : BoxObj) : Box α := ⟨cell h o.origin, cell h o.shape, .float⟩

/-- a program: its memory, and the arrays, planes and boxes it has names for -/
structure World (α : Type) where
  heap : Heap α
  arrs : List ℕ
  planes : List PlaneObj
  boxes : List BoxObj

/-- an argument: an array the program has a name for, or a list of three numbers -/
inductive CArg (α : Type) where
  | arr (k : ℕ)
  | data (v : V3 α)

/-- what a program may do; numbers are names (positions in the lists of the world) -/
inductive Cmd (α : Type) where
  /-- `a = np.array(v)` -/
  | array (v : V3 α)
  /-- `a[i] = x` -/
  | write (k i : ℕ) (x : α)
  /-- `p = Plane(point, normal)` -/
  | plane (point normal : CArg α)
  /-- `p = Plane.from_points(p1, p2, p3)` -/
  | fromPoints (p1 p2 p3 : CArg α)
  /-- `p = Plane.from_points_and_vector(p1, p2, vector)` -/
  | fromPointsAndVector (p1 p2 vector : CArg α)
  /-- `q = p.flipped()` -/
  | flipped (p : ℕ)
  /-- `a = p.reference_point` -/
  | referencePoint (p : ℕ)
  /-- `a = p.normal` -/
  | normal (p : ℕ)
  /-- `a = p.canonical_point` -/
  | canonicalPoint (p : ℕ)
  /-- `b = p.project_point(a)` -/
  | projectPoint (p k : ℕ)
  /-- `b = Box(origin, shape)` -/
  | box (origin shape : CArg α)
  /-- `a = b.origin` -/
  | origin (b : ℕ)
  /-- `a = b.shape` -/
  | shape (b : ℕ)
  /-- `a = b.center_point` -/
  | centerPoint (b : ℕ)

/-- `from_points` with its coercions.  plane.py:27-44 -/
def fromPointsChecked (p1 p2 p3 : V3 α) : PyM (Plane α) := do
  let p1 ← asNumeric3 p1.toList
  let p2 ← asNumeric3 p2.toList
  let p3 ← asNumeric3 p3.toList
  Plane.fromPoints p1 p2 p3

/-- `from_points_and_vector` with its coercions.  plane.py:46-71 -/
def fromPointsAndVectorChecked (p1 p2 vector : V3 α) : PyM (Plane α) := do
  let p1 ← asNumeric3 p1.toList
  let p2 ← asNumeric3 p2.toList
  let vector ← asNumeric3 vector.toList
  Plane.fromPointsAndVector p1 p2 vector

namespace World
variable (w : World α)

/-- the numbers in an argument -/
def value : CArg α → Option (V3 α)
  | .arr k => w.arrs[k]?.map (cell w.heap)
  | .data v => some v

/-- `np.asarray(arg)`: the array itself, or a new one -/
def place : CArg α → Heap α × ℕ
  | .arr k => (w.heap, w.arrs[k]?.getD 0)
  | .data v => (w.heap ++ [v], w.heap.length)

/-- a new plane, whose point is in a cell already and whose normal is a new array, unless the constructor raised.  plane.py:15-22 -/
def addPlane (hc : Heap α × ℕ) : PyM (Plane α) → World α × Option PyErr
  | .error e => (w, some e)
  | .ok pl => ({ w with heap := hc.1 ++ [pl.n], planes := w.planes ++ [⟨hc.2, hc.1.length⟩] }, none)

/-- a new array -/
def addArray (v : V3 α) : World α × Option PyErr := ({ w with heap := w.heap ++ [v], arrs := w.arrs ++ [w.heap.length] }, none)

/-- a name for an array there is -/
def addName (c : ℕ) : World α × Option PyErr := ({ w with arrs := w.arrs ++ [c] }, none)

/-- a new box, unless the constructor raised.  box.py:8-19 -/
def addBox (o s : CArg α) : PyM (Box α) → World α × Option PyErr
  | .error e => (w, some e)
  | .ok _ =>
    let (h, c) := w.place o
    let (h', d) := { w with heap := h }.place s
    ({ w with heap := h', boxes := w.boxes ++ [⟨c, d⟩] }, none)

/-- an assignment into an array -/
def write (c i : ℕ) (x : α) : World α × Option PyErr :=
  match setEntry (cell w.heap c) i x with
  | .ok v => ({ w with heap := w.heap.set c v }, none)
  | .error e => (w, some e)

/-- one command, with the exception if it raised; names that do not exist are ignored -/
def step : Cmd α → World α × Option PyErr
  | .array v => w.addArray v
  | .write k i x => match w.arrs[k]? with
    | none => (w, none)
    | some c => w.write c i x
  | .plane pt nr => match w.value pt, w.value nr with
    | some p, some n => w.addPlane (w.place pt) (Plane.mk' p n)
    | _, _ => (w, none)
  | .fromPoints a b c => match w.value a, w.value b, w.value c with
    | some p, some q, some r => w.addPlane (w.place a) (fromPointsChecked p q r)
    | _, _, _ => (w, none)
  | .fromPointsAndVector a b c => match w.value a, w.value b, w.value c with
    | some p, some q, some r => w.addPlane (w.place a) (fromPointsAndVectorChecked p q r)
    | _, _, _ => (w, none)
  | .flipped p => match w.planes[p]? with
    | none => (w, none)
    | some o => w.addPlane (w.heap, o.r0) (o.view w.heap).flipped
  | .referencePoint p => match w.planes[p]? with
    | none => (w, none)
    | some o => w.addName o.r0
  | .normal p => match w.planes[p]? with
    | none => (w, none)
    | some o => w.addName o.n
  | .canonicalPoint p => match w.planes[p]? with
    | none => (w, none)
    | some o => w.addArray (o.view w.heap).canonicalPoint
  | .projectPoint p k => match w.planes[p]?, w.arrs[k]? with
    | some o, some c => w.addArray ((o.view w.heap).projectPoint (cell w.heap c))
    | _, _ => (w, none)
  | .box o s => match w.value o, w.value s with
    | some u, some v => w.addBox o s (Box.mk' u.toList v.toList .float)
    | _, _ => (w, none)
  | .origin b => match w.boxes[b]? with
    | none => (w, none)
    | some o => w.addName o.origin
  | .shape b => match w.boxes[b]? with
    | none => (w, none)
    | some o => w.addName o.shape
  | .centerPoint b => match w.boxes[b]? with
    | none => (w, none)
    | some o => w.addArray (o.view w.heap).centerPoint

/-- a history -/
def run (cs : List (Cmd α)) : World α := cs.foldl (fun w c => (w.step c).1) w

end World
end Blmath.Geometry.PMem
