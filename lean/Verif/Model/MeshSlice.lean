import Verif.Model.Plane
import Verif.Model.EdgeMap
import Verif.Model.EulerPath

/-!
Model of `Plane.mesh_xsections` and `Plane.mesh_xsection`.  plane.py:238-422
-/

namespace Blmath.Geometry
open Graph

variable {α : Type} [Num α]

/-- The arguments of one `Polyline(v, closed=closed)` construction. -/
structure Section (α : Type) where
  v : List (V3 α)
  closed : Bool

/-- `m.v[es[:, 0]]` and the like: rows of an array selected by an index list -/
def takeRows {β : Type} (xs : List β) (is : List ℕ) : PyM (List β) :=
  is.mapM fun (i : ℕ) => pyIndex xs (i : ℤ)

/-- `np.vstack((fs[:, (0, 1)], fs[:, (1, 2)], fs[:, (2, 0)]))`.  plane.py:280 -/
def faceEdges (fs : List (ℕ × ℕ × ℕ)) : List (ℕ × ℕ) :=
  fs.map (fun f => (f.1, f.2.1)) ++ fs.map (fun f => (f.2.1, f.2.2)) ++
    fs.map (fun f => (f.2.2, f.1))

/-- the rows where the mask is True: `pts[pt_is_valid]` and `es[pt_is_valid]` -/
def masked {β : Type} (xs : List β) (mask : List Bool) : List β :=
  ((xs.zip mask).filter fun p => p.2).map Prod.fst

/-- one turn of the loop of lines 322-324 -/
def addIfNew {ν : Type} (m : EdgeMap ν) (p : ν × (ℕ × ℕ)) : EdgeMap ν :=
  if m.contains p.2.1 p.2.2 then m else m.add p.2.1 p.2.2 p.1

/-- The intersection map of a set of faces.  plane.py:316-324 -/
def intersectionMap (pl : Plane α) (m : Mesh α) (fs : List (ℕ × ℕ × ℕ)) : PyM (EdgeMap (V3 α)) := do
  let es := faceEdges fs
  let a ← takeRows m.v (es.map Prod.fst)
  let b ← takeRows m.v (es.map Prod.snd)
  let (pts, valid) ← pl.lineSegmentXsections a b
  pure (((masked pts valid).zip (masked es valid)).foldl addIfNew EdgeMap.empty)

/-- one turn of the loop building the graph.  plane.py:381-393 -/
def addFace {ν : Type} (ver : PyVer) (im : EdgeMap ν) (g : Graph) (f : ℕ × ℕ × ℕ) : PyM Graph :=
  let e0 := im.index f.1 f.2.1
  let e1 := im.index f.1 f.2.2
  let e2 := im.index f.2.1 f.2.2
  if e0.isNone then addEdge ver g e1 e2
  else if e1.isNone then addEdge ver g e0 e2
  else addEdge ver g e0 e1

/-- `np.all(a == b)` on two points -/
def V3.allEq (a b : V3 α) : Bool := Num.eq a.x b.x && Num.eq a.y b.y && Num.eq a.z b.z

/-- one component from one path.  plane.py:402-410 -/
def component (verts : List (V3 α)) (path : List ℕ) : PyM (Section α) := do
  let cv ← takeRows verts path
  let first ← pyIndex cv 0
  let last ← pyIndex cv (-1)
  if V3.allEq first last then pure ⟨cv.tail, true⟩ else pure ⟨cv, false⟩

/-- The loop of lines 398-410.  `pk`/`ko` give the unspecified choices made by the `n`-th call of
`pop_euler_path`.  Each call removes edges (theorem `C30_any`), so the last branch is never taken; it
is there to make the recursion visibly well founded. -/
def popComponents (pk : ℕ → Picker) (ko : ℕ → KeyOrder) (verts : List (V3 α)) (n : ℕ) (g : Graph) :
    PyM (List (Section α)) :=
  if g.d = [] then .ok []
  else
    match popEulerPath (pk n) (ko n) g with
    | .error e => raise e
    | .ok (none, _) => raise .ValueError
    | .ok (some path, g') =>
      match component verts path with
      | .error e => raise e
      | .ok c =>
        if h : entries g'.d < entries g.d then
          match popComponents pk ko verts (n + 1) g' with
          | .error e => raise e
          | .ok cs => .ok (c :: cs)
        else raise .GenericException
termination_by entries g.d

/-- the components and whether each is closed.  plane.py:274-410 -/
def sliceComponents (ver : PyVer) (pk : ℕ → Picker) (ko : ℕ → KeyOrder) (pl : Plane α) (m : Mesh α)
    (fs : List (ℕ × ℕ × ℕ)) : PyM (List (Section α)) := do
  let im ← intersectionMap pl m fs
  let g ← fs.foldlM (addFace ver im) (Graph.new im.values.length)
  popComponents pk ko im.values 0 g

/-- distance from `p` to the nearest of a nonempty set of points: `kdtree.query(p)[0]` -/
def nearest (nbh : V3 α × List (V3 α)) (p : V3 α) : α :=
  nbh.2.foldl (fun d q => npMin d (V3.norm (p - q))) (V3.norm (p - nbh.1))

/-- `np.mean` of the distances of a component to the neighborhood.  plane.py:421 -/
def meanDistance (nbh : V3 α × List (V3 α)) (vs : List (V3 α)) : α :=
  (vs.map (nearest nbh)).foldl (· + ·) (Num.lit 0) / Num.lit (vs.length : ℚ)

/-- `np.argmin`: position of the first smallest value; a NaN, if any, wins (the first one) -/
def argminFrom : ℕ → ℕ → α → List α → ℕ
  | _, best, _, [] => best
  | i, best, b, x :: xs =>
    if npIsNan b then best
    else if npIsNan x || Num.lt x b then argminFrom (i + 1) i x xs
    else argminFrom (i + 1) best b xs

/-- `np.argmin`; an empty sequence raises ValueError -/
def argmin : List α → PyM ℕ
  | [] => raise .ValueError
  | x :: xs => .ok (argminFrom 1 0 x xs)

/-- `mesh_xsections`.  plane.py:256-422.  A neighborhood, when given, is a nonempty set of points. -/
def Plane.meshXsections (ver : PyVer) (pk : ℕ → Picker) (ko : ℕ → KeyOrder) (pl : Plane α) (m : Mesh α)
    (neighborhood : Option (V3 α × List (V3 α)) := none) : PyM (List (Section α)) := do
  let fs ← pl.meshIntersectingFaces m
  if fs.length = 0 then pure []
  else do
    let cs ← sliceComponents ver pk ko pl m fs
    match neighborhood with
    | none => pure cs
    | some nbh =>
      if cs.length = 1 then pure cs
      else do
        let i ← argmin (cs.map fun c => meanDistance nbh c.v)
        let c ← pyIndex cs (i : ℤ)
        pure [⟨c.v, true⟩]

/-- `mesh_xsection`; `none` is `Polyline(None)`.  plane.py:238-249 -/
def Plane.meshXsection (ver : PyVer) (pk : ℕ → Picker) (ko : ℕ → KeyOrder) (pl : Plane α) (m : Mesh α)
    (neighborhood : Option (V3 α × List (V3 α)) := none) : PyM (Option (Section α)) := do
  let cs ← pl.meshXsections ver pk ko m neighborhood
  if cs.length = 0 then pure none
  else pure (some ⟨cs.flatMap Section.v, true⟩)

end Blmath.Geometry
