import Verif.Model.Plane
import Verif.Model.Segment
import Verif.Model.Apex

/-!
Model of `blmath/geometry/primitives/polyline.py`.

The object's `__dict__` is a record; a method that changes the object returns the object afterwards
together with the outcome of the call, so that the state left behind by a failed call is visible.
`as_lines` is in `Wrappers.lean`, `to_dict` and `__repr__` are in `PolylineText.lean`.  The array given to the object is kept by
numpy without copying; what follows from that is in `PolylineMemory.lean`.
-/

namespace Blmath.Geometry
variable {α : Type} [Num α]

/-- What can be assigned to `v`: None, a 2-dimensional array (number of columns, rows), or something
else (not numeric, or not 2-dimensional). -/
inductive VArg (α : Type) where
  | none
  | mat (ncols : ℕ) (rows : List (List α))
  | other

/-- one row of three numbers -/
def row3 : List α → PyM (V3 α)
  | [x, y, z] => .ok ⟨x, y, z⟩
  | _ => raise .ValueError

/-- `as_numeric_array(val, dtype=np.float64, shape=(-1, 3), allow_none=True)`: an array with three
columns is taken as it is, any other array with three rows is transposed.  coercion.py:1-46 -/
def asPoints : VArg α → PyM (Option (List (V3 α)))
  | .none => .ok Option.none
  | .mat ncols rows =>
    if rows.any fun r => r.any fun x => npIsNan x || npIsInf x then raise .ValueError
    else if ncols = 3 then do
      let ps ← rows.mapM row3
      pure (some ps)
    else match rows with
      | [xs, ys, zs] => .ok (some (List.zipWith (fun (x : α) (p : α × α) => ⟨x, p.1, p.2⟩) xs (ys.zip zs)))
      | _ => raise .ValueError
  | .other => raise .ValueError

/-- the array with the given points as rows -/
def rowsOf (ps : List (V3 α)) : VArg α := .mat 3 (ps.map V3.toList)

/-- `Polyline`: the entries `v`, `closed`, `e` of its `__dict__` -/
structure Polyline (α : Type) where
  v : Option (List (V3 α))
  closed : Bool
  e : Option (List (ℕ × ℕ))

/-- the edges computed by `_update_edges`.  polyline.py:73-79.  `np.arange(-1)` is empty; the
assignment to `edges[-1]` raises when there are no edges. -/
def mkEdges (numVertices : ℕ) (closed : Bool) : PyM (List (ℕ × ℕ)) :=
  let numEdges := if closed then numVertices else numVertices - 1
  let edges := (List.range numEdges).map fun (i : ℕ) => (i, i + 1)
  if closed then do
    let last ← pyIndex edges (-1)
    pure (edges.dropLast ++ [(last.1, 0)])
  else .ok edges

namespace Polyline
variable (p : Polyline α)

/-- `_update_edges`.  polyline.py:68-83 -/
def updateEdges : Polyline α × PyM Unit :=
  match p.v with
  | none => ({ p with e := none }, .ok ())
  | some v =>
    match mkEdges v.length p.closed with
    | .ok e => ({ p with e := some e }, .ok ())
    | .error err => (p, .error err)

/-- assignment to `v`, and `del` with `VArg.none`.  polyline.py:85-94, decorators.py:15-18 -/
def setV (val : VArg α) : Polyline α × PyM Unit :=
  match asPoints val with
  | .error err => (p, .error err)
  | .ok v => updateEdges { p with v := v }

/-- assignment to `closed` (`del` assigns None, which is falsy).  polyline.py:96-103 -/
def setClosed (val : Bool) : Polyline α × PyM Unit := updateEdges { p with closed := val }

/-- `Polyline(v, closed)`.  polyline.py:22-32 -/
def new (v : VArg α) (closed : Bool := false) : PyM (Polyline α) :=
  match setV ⟨none, closed, none⟩ v with
  | (p, .ok ()) => .ok p
  | (_, .error err) => raise err

/-- `len(self)`.  polyline.py:43-44 -/
def len : PyM ℕ :=
  match p.v with
  | none => raise .TypeError
  | some v => .ok v.length

/-- `copy`.  polyline.py:46-52 -/
def copy : PyM (Polyline α) :=
  match p.v with
  | none => new .none p.closed
  | some v => new (rowsOf v) p.closed

/-- `self.v`, used as an array -/
def vArr : PyM (List (V3 α)) :=
  match p.v with
  | none => raise .TypeError
  | some v => .ok v

/-- `self.v[edge]` for one edge -/
def segmentOf (v : List (V3 α)) (e : ℕ × ℕ) : PyM (V3 α × V3 α) := do
  let a ← pyIndex v (e.1 : ℤ)
  let b ← pyIndex v (e.2 : ℤ)
  pure (a, b)

/-- `segments`.  polyline.py:114-119 -/
def segments : PyM (List (V3 α × V3 α)) := do
  let v ← p.vArr
  match p.e with
  | none => raise .TypeError
  | some e => e.mapM (segmentOf v)

/-- `segment_lengths`.  polyline.py:121-130 -/
def segmentLengths : PyM (List α) :=
  match p.e with
  | none => .ok []
  | some _ => do
    let s ← p.segments
    pure (s.map fun s => V3.norm (s.2 - s.1))

/-- `total_length`.  polyline.py:132-138 -/
def totalLength : PyM α := do
  let ls ← p.segmentLengths
  pure (Vx.sumL ls)

/-- `segment_vectors`.  polyline.py:140-146 -/
def segmentVectors : PyM (List (V3 α)) := do
  let s ← p.segments
  pure (s.map fun s => s.2 - s.1)

/-- `flip`.  polyline.py:148-152.  `np.flipud(None)` raises ValueError. -/
def flip : Polyline α × PyM Unit :=
  match p.v with
  | none => (p, raise .ValueError)
  | some v => p.setV (rowsOf v.reverse)

/-- `np.arange(a, b)` -/
def arange (a b : ℤ) : List ℤ := (List.range (b - a).toNat).map fun (i : ℕ) => a + i

/-- `reindexed(index, ret_edge_mapping=True)`; without the flag the first component is returned.
polyline.py:154-178 -/
def reindexed (index : ℤ) : PyM (Polyline α × List ℤ) :=
  if !p.closed then raise .ValueError
  else do
    let v ← p.vArr
    let result ← new (rowsOf (pySlice v index v.length ++ pySlice v 0 index)) true
    pure (result, arange index v.length ++ arange 0 index)

/-- `np.ceil` -/
def npCeil (x : α) : α :=
  match Num.floor (-x) with
  | some k => Num.lit ((-k : ℤ) : ℚ)
  | none => x

/-- `np.int(x)` of an integral float: NaN raises ValueError, an infinity OverflowError -/
def npInt (x : α) : PyM ℤ :=
  match Num.floor x with
  | some k => .ok k
  | none => if npIsNan x then raise .ValueError else raise .OverflowError

/-- the loop of `partition_by_length`, state: indices of original vertices, new vertices.
polyline.py:198-208 -/
def partitionLoop (v : List (V3 α)) : List ((ℕ × ℕ) × α) → List ℕ × List (V3 α) →
    PyM (List ℕ × List (V3 α))
  | [], st => .ok st
  | (edge, numSegments) :: rest, (indices, newV) => do
    let (startPoint, endPoint) ← segmentOf v edge
    let indices := indices ++ [newV.length]
    if Num.le numSegments (Num.lit 1) then partitionLoop v rest (indices, newV ++ [startPoint])
    else do
      let n ← npInt numSegments
      let pts ← partitionSegment (α := α) startPoint endPoint (some n) false
      partitionLoop v rest (indices, newV ++ pts)

/-- the indices and vertices computed by `partition_by_length`.  polyline.py:192-212 -/
def partitionVerts (maxLength : α) : PyM (List ℕ × List (V3 α)) := do
  let lengths ← p.segmentLengths
  let needed := lengths.map fun l => npCeil (l / maxLength)
  let v := p.v.getD []
  let x ← partitionLoop v ((p.e.getD []).zip needed) ([], [])
  if !p.closed then do
    let v ← p.vArr
    let last ← pyIndex v (-1)
    pure (x.1 ++ [x.2.length], x.2 ++ [last])
  else pure x

/-- `partition_by_length(max_length, ret_indices=True)`.  polyline.py:180-216 -/
def partitionByLength (maxLength : α) : Polyline α × PyM (List ℕ) :=
  match p.partitionVerts maxLength with
  | .error err => (p, .error err)
  | .ok (indices, newV) =>
    match p.setV (rowsOf newV) with
    | (p', .ok ()) => (p', .ok indices)
    | (p', .error err) => (p', .error err)

/-- `apex`.  polyline.py:218-226.  Without vertices `None.dot` raises AttributeError (apex.py:11). -/
def apexOf (axis : V3 α) : PyM (V3 α) :=
  match p.v with
  | none => raise .AttributeError
  | some v => apex v axis

/-- is the edge not strictly on one side of the plane: `np.abs(sign sum) != 2`.  polyline.py:235 -/
def edgeMeets (pl : Plane α) (s : V3 α × V3 α) : Bool :=
  !Num.eq (npAbs (npSign (pl.signedDistance1 s.1) + npSign (pl.signedDistance1 s.2))) (Num.lit 2)

/-- the weighted average of the end points of one edge.  polyline.py:237-241 -/
def edgePoint (pl : Plane α) (s : V3 α × V3 α) : V3 α :=
  let d0 := npAbs (pl.signedDistance1 s.1)
  let d1 := npAbs (pl.signedDistance1 s.2)
  let t0 := d0 / (d0 + d1)
  let t1 := d1 / (d0 + d1)
  V3.smul (Num.lit 1 - t0) s.1 + V3.smul (Num.lit 1 - t1) s.2

/-- `intersect_plane(plane, ret_edge_indices=True)`.  polyline.py:228-245 -/
def intersectPlane (pl : Plane α) : PyM (List (V3 α) × List ℕ) := do
  let segs ← p.segments
  let which := segs.map (edgeMeets pl)
  pure ((segs.filter (edgeMeets pl)).map (edgePoint pl), Plane.flatnonzero which)

/-- `_cut_by_plane_open`.  polyline.py:247-267.  `vx.sproj(v, onto=n)` is the dot product with the
normalised normal. -/
def cutOpen (pl : Plane α) (intersectionPoint : V3 α) (edgeIndex : ℕ) : PyM (Polyline α) := do
  let v ← p.vArr
  let edges := p.e.getD []
  let edge ← pyIndex edges (edgeIndex : ℤ)
  let vectors ← p.segmentVectors
  let vector ← pyIndex vectors (edgeIndex : ℤ)
  if Num.lt (Num.lit 0) (V3.dot vector (Vx.normalize3 pl.normal)) then
    new (rowsOf (intersectionPoint :: pySlice v (edge.2 : ℤ) v.length)) false
  else
    new (rowsOf (pySlice v 0 ((edge.1 : ℤ) + 1) ++ [intersectionPoint])) false

/-- `np.where(mask)`: the positions of the true entries -/
def whereTrue (m : List Bool) : List ℕ := Plane.flatnonzero m

/-- `to_array(maybe_point)`.  polyline.py:312-316 -/
def toArray : Option (V3 α) → List (V3 α)
  | none => []
  | some x => [x]

/-- the index given to `reindexed`, from the signs of the vertices.  polyline.py:276-284 -/
def closedStart (vSign : List α) : PyM ℕ := do
  let s0 ← pyIndex vSign 0
  if Num.eq s0 (Num.lit (-1)) then
    pyIndex (whereTrue (vSign.map fun s => Num.le (Num.lit 0) s)) 0
  else do
    let i ← pyIndex (whereTrue (vSign.map fun s => Num.lt s (Num.lit 0))) (-1)
    pure (i + 1)

/-- the crossing point of one segment unless the vertex is on the plane (`None`).
polyline.py:293-298, 303-308 -/
def synthesized (pl : Plane α) (sign : α) (segs : List (V3 α × V3 α)) (i : ℤ) : PyM (Option (V3 α)) :=
  if Num.eq sign (Num.lit 0) then pure none
  else do
    let s ← pyIndex segs i
    pure (pl.lineSegmentXsection s.1 s.2)

/-- the part after the reindexing.  polyline.py:292-324 -/
def cutWorking (working : Polyline α) (pl : Plane α) : PyM (Polyline α) := do
  let wv ← working.vArr
  let vSign := pl.sign wv
  let segs ← working.segments
  let s0 ← pyIndex vSign 0
  let startPoint ← synthesized pl s0 segs (-1)
  let endIndex ← pyIndex (whereTrue (vSign.map fun s => Num.le (Num.lit 0) s)) (-1)
  let s1 ← pyIndex vSign (endIndex : ℤ)
  let endPoint ← synthesized pl s1 segs (endIndex : ℤ)
  let keep := pySlice wv 0 ((endIndex : ℤ) + 1)
  new (rowsOf (toArray startPoint ++ keep ++ toArray endPoint)) false

/-- `_cut_by_plane_closed`.  polyline.py:269-324 -/
def cutClosed (pl : Plane α) : PyM (Polyline α) := do
  let v ← p.vArr
  let index ← closedStart (pl.sign v)
  let x ← p.reindexed (index : ℤ)
  cutWorking x.1 pl

/-- `cut_by_plane`.  polyline.py:326-362 -/
def cutByPlane (pl : Plane α) : PyM (Polyline α) := do
  let (points, indices) ← p.intersectPlane pl
  if indices.length = 0 then raise .ValueError
  else if p.closed then
    (if indices.length ≠ 2 then raise .ValueError else p.cutClosed pl)
  else if indices.length > 1 then raise .ValueError
  else do
    let pt ← pyIndex points 0
    let i ← pyIndex indices 0
    p.cutOpen pl pt i

end Polyline
end Blmath.Geometry
