import Verif.Model.Polyline

/-!
Memory behind the arrays of `blmath/geometry/primitives/polyline.py`.

`Polyline.lean` takes the vertices of a polyline to be a list of points.  In fact they are a numpy array, which may be
the caller's own array (`np.asarray` does not copy an array of floats), a reversed view of it (`np.flipud`) or a transposed view
(`a.T`), so that one assignment into an array may be seen through several objects.  Here memory is a list of buffers of
numbers, an array object names a buffer and the position of each of its entries, and a polyline holds such an object.

Indices of arrays are non-negative.  Arrays are two-dimensional arrays of floats; whatever else is given to a polyline
(lists, arrays of integers) is copied by `np.asarray`.
-/

namespace Blmath.Geometry.Mem
variable {α : Type} [Num α]

/-- memory: the buffers allocated so far -/
abbrev Heap (α : Type) := List (List α)

/-- a two-dimensional array object: its buffer, the number of columns, and for each row the positions of its entries -/
structure Arr where
  buf : ℕ
  ncols : ℕ
  cells : List (List ℕ)

/-- the number at a position -/
def cellAt (h : Heap α) (b i : ℕ) : α := ((h[b]?.getD [])[i]?).getD (Num.lit 0)

/-- the entries of an array, row by row -/
def Arr.rows (h : Heap α) (a : Arr) : List (List α) := a.cells.map fun r => r.map (cellAt h a.buf)

/-- positions for rows of the given lengths, one after the other from `k` on -/
def number {β : Type} : ℕ → List (List β) → List (List ℕ)
  | _, [] => []
  | k, r :: rs => List.range' k r.length :: number (k + r.length) rs

/-- a new array with the given entries in a buffer of its own (`np.array(...)`, `np.copy`, `np.append`, `np.vstack`) -/
def alloc (h : Heap α) (ncols : ℕ) (rows : List (List α)) : Heap α × Arr :=
  (h ++ [rows.flatten], ⟨h.length, ncols, number 0 rows⟩)

/-- `a[i, j] = x`; IndexError outside the array -/
def write (h : Heap α) (a : Arr) (i j : ℕ) (x : α) : PyM (Heap α) :=
  match a.cells[i]? with
  | none => raise .IndexError
  | some r => match r[j]? with
    | none => raise .IndexError
    | some c => .ok (h.modify a.buf fun b => b.set c x)

/-- `a[start:stop]`, a view -/
def Arr.slice (a : Arr) (start stop : ℤ) : Arr := { a with cells := pySlice a.cells start stop }

/-- `np.flipud(a)`, a view -/
def Arr.flipud (a : Arr) : Arr := { a with cells := a.cells.reverse }

/-- a point from a row -/
def toPoint (r : List α) : V3 α := ⟨r.getD 0 (Num.lit 0), r.getD 1 (Num.lit 0), r.getD 2 (Num.lit 0)⟩

/-- the rows as points -/
def Arr.points (h : Heap α) (a : Arr) : List (V3 α) := (a.rows h).map toPoint

/-- what can be assigned to `v`: an array of floats, or something `np.asarray` has to copy -/
inductive Arg (α : Type) where
  | arr (a : Arr)
  | data (x : VArg α)

/-- the checks of `as_numeric_array(val, dtype=np.float64, shape=(-1, 3), allow_none=True)` on an array: the same array object,
or its transpose, which is a view of the same memory.  coercion.py:29-46 -/
def coerceArr (h : Heap α) (a : Arr) : PyM Arr :=
  if (a.rows h).any fun r => r.any fun x => npIsNan x || npIsInf x then raise .ValueError
  else if a.ncols = 3 then
    (if a.cells.all fun r => r.length = 3 then .ok a else raise .ValueError)
  else match a.cells with
    | [xs, ys, zs] => .ok ⟨a.buf, 3, List.zipWith (fun x (p : ℕ × ℕ) => [x, p.1, p.2]) xs (ys.zip zs)⟩
    | _ => raise .ValueError

/-- `as_numeric_array`, with the memory afterwards.  coercion.py:21-46 -/
def coerce (h : Heap α) : Arg α → Heap α × PyM (Option Arr)
  | .arr a => (h, (coerceArr h a).map some)
  | .data .none => (h, .ok none)
  | .data (.mat n rows) =>
    let (h', a) := alloc h n rows
    (h', (coerceArr h' a).map some)
  | .data .other => (h, raise .ValueError)

/-- a `Polyline` object: the entries `v`, `closed`, `e` of its `__dict__` -/
structure Obj where
  v : Option Arr
  closed : Bool
  e : Option (List (ℕ × ℕ))

namespace Obj

/-- what the object looks like at the moment -/
def view (h : Heap α) (o : Obj) : Polyline α := ⟨o.v.map (Arr.points h), o.closed, o.e⟩

/-- `_update_edges`.  polyline.py:68-83 -/
def updateEdges (o : Obj) : Obj × PyM Unit :=
  match o.v with
  | none => ({ o with e := none }, .ok ())
  | some a =>
    match mkEdges a.cells.length o.closed with
    | .ok e => ({ o with e := some e }, .ok ())
    | .error err => (o, .error err)

/-- assignment to `v`.  polyline.py:85-94 -/
def setV (h : Heap α) (o : Obj) (arg : Arg α) : Heap α × Obj × PyM Unit :=
  match coerce h arg with
  | (h', .error err) => (h', o, .error err)
  | (h', .ok v) => (h', (updateEdges { o with v := v }).1, (updateEdges { o with v := v }).2)

/-- `Polyline(v, closed)`.  polyline.py:22-32 -/
def new (h : Heap α) (arg : Arg α) (closed : Bool) : Heap α × PyM Obj :=
  match setV h ⟨none, closed, none⟩ arg with
  | (h', o, .ok ()) => (h', .ok o)
  | (h', _, .error err) => (h', .error err)

/-- `flip`.  polyline.py:148-152 -/
def flip (h : Heap α) (o : Obj) : Heap α × Obj × PyM Unit :=
  match o.v with
  | none => (h, o, raise .ValueError)
  | some a => setV h o (.arr a.flipud)

/-- `partition_by_length`: the new vertices are collected by `np.vstack`.  polyline.py:180-216 -/
def partition (h : Heap α) (o : Obj) (maxLength : α) : Heap α × Obj × PyM Unit :=
  match (o.view h).partitionVerts maxLength with
  | .error err => (h, o, .error err)
  | .ok x => setV h o (.data (rowsOf x.2))

/-- `copy`.  polyline.py:46-52 -/
def copy (h : Heap α) (o : Obj) : Heap α × PyM Obj :=
  match o.v with
  | none => new h (.data .none) o.closed
  | some a =>
    let (h', b) := alloc h a.ncols (a.rows h)
    new h' (.arr b) o.closed

/-- an object for a polyline made from a newly allocated array, as by `np.append`, `np.vstack` and `np.concatenate` in
`reindexed` and `cut_by_plane`.  polyline.py:165-168, 258-267, 318-324 -/
def fresh (h : Heap α) : PyM (Polyline α) → Heap α × PyM Obj
  | .error err => (h, .error err)
  | .ok q => match q.v with
    | none => (h, .ok ⟨none, q.closed, q.e⟩)
    | some v =>
      let (h', b) := alloc h 3 (v.map V3.toList)
      (h', .ok ⟨some b, q.closed, q.e⟩)

end Obj

/-- a program: its memory, the array objects and the polylines it has names for -/
structure World (α : Type) where
  heap : Heap α
  arrs : List Arr
  polys : List Obj

/-- an argument in a program: an array it has a name for, or data -/
inductive CArg (α : Type) where
  | arr (k : ℕ)
  | data (x : VArg α)

/-- what a program may do; numbers are names (positions in the lists of the world) -/
inductive Cmd (α : Type) where
  /-- `a = np.array(rows)` -/
  | array (ncols : ℕ) (rows : List (List α))
  /-- `b = a[start:stop]` -/
  | slice (k : ℕ) (start stop : ℤ)
  /-- `a[i, j] = x` -/
  | write (k i j : ℕ) (x : α)
  /-- `a = p.v` (nothing happens for `None`) -/
  | takeV (p : ℕ)
  /-- `p = Polyline(arg, closed)` -/
  | poly (arg : CArg α) (closed : Bool)
  /-- `p.v = arg` -/
  | setV (p : ℕ) (arg : CArg α)
  /-- `p.closed = b` -/
  | setClosed (p : ℕ) (b : Bool)
  /-- `p.flip()` -/
  | flip (p : ℕ)
  /-- `p.partition_by_length(maxLength)` -/
  | partition (p : ℕ) (maxLength : α)
  /-- `q = p.copy()` -/
  | copy (p : ℕ)
  /-- `q = p.reindexed(index)` -/
  | reindexed (p : ℕ) (index : ℤ)
  /-- `q = p.cut_by_plane(plane)` -/
  | cut (p : ℕ) (plane : Plane α)

/-- the exception, if any -/
def errOf {β : Type} : PyM β → Option PyErr
  | .ok _ => none
  | .error e => some e

namespace World
variable (w : World α)

/-- an argument resolved -/
def resolve : CArg α → Option (Arg α)
  | .arr k => w.arrs[k]?.map Arg.arr
  | .data x => some (.data x)

/-- a mutation of one polyline -/
def mutate (p : ℕ) (r : Heap α × Obj × PyM Unit) : World α × Option PyErr :=
  ({ w with heap := r.1, polys := w.polys.set p r.2.1 }, errOf r.2.2)

/-- a new polyline, unless the call raised -/
def add (r : Heap α × PyM Obj) : World α × Option PyErr :=
  match r.2 with
  | .ok o => ({ w with heap := r.1, polys := w.polys ++ [o] }, none)
  | .error e => ({ w with heap := r.1 }, some e)

/-- one command; names that do not exist are ignored -/
def step : Cmd α → World α × Option PyErr
  | .array n rows => ({ w with heap := (alloc w.heap n rows).1, arrs := w.arrs ++ [(alloc w.heap n rows).2] }, none)
  | .slice k start stop => match w.arrs[k]? with
    | none => (w, none)
    | some a => ({ w with arrs := w.arrs ++ [a.slice start stop] }, none)
  | .write k i j x => match w.arrs[k]? with
    | none => (w, none)
    | some a => match Mem.write w.heap a i j x with
      | .ok h => ({ w with heap := h }, none)
      | .error e => (w, some e)
  | .takeV p => match w.polys[p]? with
    | none => (w, none)
    | some o => match o.v with
      | none => (w, none)
      | some a => ({ w with arrs := w.arrs ++ [a] }, none)
  | .poly arg closed => match w.resolve arg with
    | none => (w, none)
    | some arg => w.add (Obj.new w.heap arg closed)
  | .setV p arg => match w.polys[p]?, w.resolve arg with
    | some o, some arg => w.mutate p (o.setV w.heap arg)
    | _, _ => (w, none)
  | .setClosed p b => match w.polys[p]? with
    | none => (w, none)
    | some o => w.mutate p (w.heap, Obj.updateEdges { o with closed := b })
  | .flip p => match w.polys[p]? with
    | none => (w, none)
    | some o => w.mutate p (o.flip w.heap)
  | .partition p l => match w.polys[p]? with
    | none => (w, none)
    | some o => w.mutate p (o.partition w.heap l)
  | .copy p => match w.polys[p]? with
    | none => (w, none)
    | some o => w.add (o.copy w.heap)
  | .reindexed p i => match w.polys[p]? with
    | none => (w, none)
    | some o => w.add (Obj.fresh w.heap (((o.view w.heap).reindexed i).map Prod.fst))
  | .cut p pl => match w.polys[p]? with
    | none => (w, none)
    | some o => w.add (Obj.fresh w.heap ((o.view w.heap).cutByPlane pl))

/-- a history -/
def run (cs : List (Cmd α)) : World α := cs.foldl (fun w c => (w.step c).1) w

end World
end Blmath.Geometry.Mem
