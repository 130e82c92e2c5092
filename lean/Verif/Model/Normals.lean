import Verif.Model.Lchol
import Verif.Base.V3

/-!
Model of `blmath/optimization/objectives/normals.py`.

An array is the list of its numbers in row order; `reshape(-1, 3)` turns it into rows.  Each class is modelled by its
`compute_r` and `compute_dr_wrt` as functions of the current terms.  The machinery of chumpy (caching of results, the
chain rule) is not modelled, except for `VertNormals`, which keeps state of its own between changes of its terms.
Numbers of vertices are unbounded integers.  Meshes without faces are treated like others (scipy versions differ on
matrices without columns).
-/

namespace Blmath.Normals
open Blmath.Linalg
variable {α β : Type} [Num α]

/-- the rows of `x.reshape(-1, 3)` -/
def rows3 : List β → PyM (List (V3 β))
  | [] => .ok []
  | a :: b :: c :: l => do
    let r ← rows3 l
    pure (⟨a, b, c⟩ :: r)
  | _ => raise .ValueError

/-- `x.ravel()` of an array with three columns -/
def ravel3 (l : List (V3 β)) : List β := l.flatMap fun r => [r.x, r.y, r.z]

/-- `x.ravel()` of an array of 3×3 blocks -/
def ravel33 (l : List (V3 (V3 β))) : List β := ravel3 (ravel3 l)

/-- the transpose of a 3×3 block -/
def tr33 (b : V3 (V3 β)) : V3 (V3 β) := ⟨⟨b.x.x, b.y.x, b.z.x⟩, ⟨b.x.y, b.y.y, b.z.y⟩, ⟨b.x.z, b.y.z, b.z.z⟩⟩

/-- the row numbers of the stored entries: `col(arange(size))` three times side by side, cut into 3×3 blocks,
each transposed.  normals.py:35-38, 173-176 -/
def blockIndices (size : ℕ) : PyM (List ℕ) := do
  let cols := (List.range size).map fun c => (⟨c, c, c⟩ : V3 ℕ)
  let blocks ← rows3 cols
  pure (ravel33 (blocks.map tr33))

/-- `np.arange(0, (size + 1) * 3, 3)`.  normals.py:34, 172 -/
def blockIndptr (size : ℕ) : List ℕ := (List.range (size + 1)).map (· * 3)

/-! ### NormalizedNx3 -/

/-- `self.ss` of one row: the squared length, 1e-10 for a row of zeros.  normals.py:16-17 -/
def rowSs (r : V3 α) : α :=
  let ss := V3.dot r r
  if Num.eq ss (Num.lit 0) then Num.lit (1 / 10000000000) else ss

/-- `NormalizedNx3.compute_r`.  normals.py:14-22 -/
def normalizedR (v : List α) : PyM (List α) := do
  let rows ← rows3 v
  pure (ravel3 (rows.map fun r => V3.sdiv r (Num.sqrt (rowSs r))))

/-- the block of one row; `ss**(-3./2.)` is written with the square root.  normals.py:18-19, 28-31 -/
def normalizedBlock (r : V3 α) : V3 (V3 α) :=
  let ss := rowSs r
  let p := Num.lit 1 / (ss * Num.sqrt ss)
  let sInv := Num.lit 1 / Num.sqrt ss
  ⟨⟨-(r.x * r.x) * p + sInv, -(r.x * r.y) * p, -(r.x * r.z) * p⟩,
   ⟨-(r.y * r.x) * p, -(r.y * r.y) * p + sInv, -(r.y * r.z) * p⟩,
   ⟨-(r.z * r.x) * p, -(r.z * r.y) * p, -(r.z * r.z) * p + sInv⟩⟩

/-- `NormalizedNx3.compute_dr_wrt(self.v)`.  normals.py:24-40 -/
def normalizedDr (v : List α) : PyM (Csc α) := do
  let rows ← rows3 v
  let data := ravel33 (rows.map normalizedBlock)
  let indices ← blockIndices v.length
  cscNew data indices (blockIndptr v.length) v.length v.length

/-! ### CrossProduct -/

/-- `Ax`: the matrix of the cross product with `a` from the left.  normals.py:195-211 -/
def skewA (a : V3 α) : V3 (V3 α) :=
  ⟨⟨Num.lit 0, -a.z, a.y⟩, ⟨a.z, Num.lit 0, -a.x⟩, ⟨-a.y, a.x, Num.lit 0⟩⟩

/-- `Bx`: the matrix of the cross product with `b` from the right.  normals.py:213-231 -/
def skewB (b : V3 α) : V3 (V3 α) :=
  ⟨⟨Num.lit 0, b.z, -b.y⟩, ⟨-b.z, Num.lit 0, b.x⟩, ⟨b.y, -b.x, Num.lit 0⟩⟩

/-- a 3×3 block times a vector -/
def blockApp (m : V3 (V3 α)) (x : V3 α) : V3 α := ⟨V3.dot m.x x, V3.dot m.y x, V3.dot m.z x⟩

/-- `_call_einsum_matvec`; the right hand side must have as many rows as there are blocks.  normals.py:234-236 -/
def einsumMatvec (m : List (V3 (V3 α))) (righthand : List α) : PyM (List α) :=
  if righthand.length ≠ m.length * 3 then raise .ValueError
  else do
    let r ← rows3 righthand
    pure (ravel3 (List.zipWith blockApp m r))

/-- `CrossProduct.compute_r`; `b.r.reshape((-1, 3))` comes first, in `on_changed`.  normals.py:150-165 -/
def crossR (a b : List α) : PyM (List α) := do
  let ra ← rows3 a
  let _ ← rows3 b
  einsumMatvec (ra.map skewA) b

/-- what `compute_dr_wrt` keeps between calls: indices and indptr.  normals.py:170-177 -/
abbrev CrossCache := Option (List ℕ × List ℕ)

/-- the indices and indptr used for size `sz`.  normals.py:170-177 -/
def crossIndices (cache : CrossCache) (sz : ℕ) : PyM (List ℕ × List ℕ) :=
  match cache with
  | some c => if c.1.length ≠ sz * 3 then do
      let i ← blockIndices sz
      pure (i, blockIndptr sz)
    else .ok c
  | none => do
    let i ← blockIndices sz
    pure (i, blockIndptr sz)

/-- the negated matrix -/
def Csc.neg (A : Csc α) : Csc α := { A with data := A.data.map fun x => -x }

/-- `CrossProduct.compute_dr_wrt(obj)`, with the kept indices before and after; the objects `a`, `b` and `obj` are
given by their identities `ida`, `idb` and `obj`.  normals.py:167-193 -/
def crossDr (cache : CrossCache) (ida idb : ℕ) (a b : List α) (obj : ℕ) : PyM (Option (Csc α) × CrossCache) := do
  let ra ← rows3 a
  let rb ← rows3 b
  if obj ≠ ida ∧ obj ≠ idb then pure (none, cache)
  else do
    let c ← crossIndices cache a.length
    if obj = ida then do
      let r ← cscNew (ravel33 (rb.map skewB)) c.1 c.2 a.length a.length
      pure (some (Csc.neg r), some c)
    else do
      let r ← cscNew (ravel33 (ra.map skewA)) c.1 c.2 a.length a.length
      pure (some (Csc.neg r), some c)

/-! ### TriEdges -/

/-- `f[:, c]` of a face -/
def corner (f : V3 ℤ) (c : ℤ) : PyM ℤ := pyIndex [f.x, f.y, f.z] c

/-- `_edges_for`; the column number is checked even if there are no faces.  normals.py:112-115, 137-140 -/
def edgesFor (v : List α) (f : List (V3 ℤ)) (cplus cminus : ℤ) : PyM (List α) := do
  let rows ← rows3 v
  let _ ← corner ⟨0, 0, 0⟩ cplus
  let plus ← f.mapM fun t => do let i ← corner t cplus; pyIndex rows i
  let _ ← corner ⟨0, 0, 0⟩ cminus
  let minus ← f.mapM fun t => do let i ← corner t cminus; pyIndex rows i
  pure (ravel3 (List.zipWith (· - ·) plus minus))

/-- `csc_matrix((data, ij), shape=(m, n))`: numbers outside of the shape raise -/
def cscFromEntries (entries : List (ℤ × ℤ × α)) (m n : ℕ) : PyM (Entries α) :=
  if ∀ t ∈ entries, 0 ≤ t.1 ∧ t.1 < m ∧ 0 ≤ t.2.1 ∧ t.2.1 < n then
    .ok ⟨m, n, entries.map fun t => (t.1.toNat, t.2.1.toNat, t.2.2)⟩
  else raise .ValueError

/-- the matrix with a one in row 3i+c and column 3w+c for the i-th number `w` and c = 0, 1, 2.
normals.py:124-135 -/
def cornerMatrix (w : List ℤ) (m n : ℕ) : PyM (Entries α) :=
  let w3 := w.flatMap fun i => [i * 3, i * 3 + 1, i * 3 + 2]
  cscFromEntries (((List.range w3.length).zip w3).map fun t => ((t.1 : ℤ), t.2, Num.lit 1)) m n

/-- `A - B` -/
def Entries.sub (A B : Entries α) : Entries α :=
  { A with entries := A.entries ++ B.entries.map fun t => (t.1, t.2.1, -t.2.2) }

/-- `TriEdges.compute_dr_wrt(self.v)`.  normals.py:117-135 -/
def edgesDr (v : List α) (f : List (V3 ℤ)) (cplus cminus : ℤ) : PyM (Entries α) := do
  let _ ← corner ⟨0, 0, 0⟩ cplus
  let vplus ← f.mapM fun t => corner t cplus
  let _ ← corner ⟨0, 0, 0⟩ cminus
  let vminus ← f.mapM fun t => corner t cminus
  let p ← cornerMatrix vplus (f.length * 3) v.length
  let m ← cornerMatrix vminus (f.length * 3) v.length
  pure (Entries.sub p m)

/-- `TriNormalsScaled`.  normals.py:102-103 -/
def triNormalsScaled (v : List α) (f : List (V3 ℤ)) : PyM (List α) := do
  let a ← edgesFor v f 1 0
  let b ← edgesFor v f 2 0
  crossR a b

/-- `TriNormals`.  normals.py:99-100 -/
def triNormals (v : List α) (f : List (V3 ℤ)) : PyM (List α) := do
  let s ← triNormalsScaled v f
  normalizedR s

/-! ### VertNormals -/

/-- `self.faces_by_vertex`: the entries of the three coordinates one after the other.  normals.py:64-76 -/
def facesByVertex (size : ℕ) (f : List (V3 ℤ)) : PyM (Entries α) :=
  let is := ravel3 f
  let js : List ℤ := (List.range f.length).flatMap fun (j : ℕ) => [(j : ℤ), j, j]
  let part (c : ℤ) : List (ℤ × ℤ × α) := (is.zip js).map fun t => (t.1 * 3 + c, t.2 * 3 + c, Num.lit 1)
  cscFromEntries (part 0 ++ part 1 ++ part 2) size (f.length * 3)

/-- the sum of a list -/
def sumL : List α → α
  | [] => Num.lit 0
  | x :: xs => x + sumL xs

/-- a sparse matrix times a vector -/
def entMulVec (A : Entries α) (x : List α) : PyM (List α) :=
  if A.ncol ≠ x.length then raise .ValueError
  else .ok ((List.range A.nrow).map fun i =>
    sumL (A.entries.filterMap fun t => if t.1 = i then (x[t.2.1]?).map (t.2.2 * ·) else none))

/-- the normals not normalized: the mean of the normals of the faces around the vertex, divided by the square root
of its length; `(...)**.25` is written with square roots.  normals.py:84-88 -/
def meanNormals (fbv : Entries α) (tns : List α) : PyM (List α) := do
  let test ← entMulVec fbv (List.replicate fbv.ncol (Num.lit 1))
  let scaled : Entries α := { fbv with
    entries := fbv.entries.filterMap fun t => (test[t.1]?).map fun s => (t.1, t.2.1, Num.lit 1 / s * t.2.2) }
  let normals ← entMulVec scaled tns
  let rows ← rows3 normals
  pure (ravel3 (rows.map fun r => V3.sdiv r (Num.sqrt (Num.sqrt (V3.dot r r)))))

/-- `self.normals`.  normals.py:80-88 -/
def normalsOf (fbv : Entries α) (tns : List α) (normalized : Bool) : PyM (List α) :=
  if normalized then do
    let s ← entMulVec fbv tns
    normalizedR s
  else meanNormals fbv tns

/-- the normals from the terms alone.  normals.py:64-91 -/
def vertNormals (v : List α) (f : List (V3 ℤ)) (normalized : Bool) : PyM (List α) := do
  let fbv ← facesByVertex v.length f
  let tns ← triNormalsScaled v f
  normalsOf fbv tns normalized

/-- a value of the term `v`: its numbers and the length of its first axis -/
structure VTerm (α : Type) where
  data : List α
  shape0 : ℕ

/-- `VertNormals`: its terms, those changed since the last evaluation, and what is kept: `faces_by_vertex`, the faces
used in `tns` and whether `normals` is normalized -/
structure VertObj (α : Type) where
  v : VTerm α
  f : List (V3 ℤ)
  normalized : Bool
  fChanged : Bool := true
  kept : Option (Entries α × List (V3 ℤ) × Bool) := none

/-- an assignment to a term -/
inductive VertSet (α : Type) where
  | v (v : VTerm α)
  | f (f : List (V3 ℤ))
  | normalized (b : Bool)

/-- assignment -/
def VertObj.set (o : VertObj α) : VertSet α → VertObj α
  | .v v => { o with v := v }
  | .f f => { o with f := f, fChanged := true }
  | .normalized b => { o with normalized := b }

/-- `on_changed`: the matrix is kept if the faces did not change and its number of rows fits.
normals.py:54-88 -/
def VertObj.onChanged (o : VertObj α) : PyM (Entries α × List (V3 ℤ) × Bool) :=
  match o.kept with
  | some k => if ¬ o.fChanged ∧ k.1.nrow = o.v.shape0 * 3 then .ok k
    else do
      let fbv ← facesByVertex o.v.data.length o.f
      pure (fbv, o.f, o.normalized)
  | none => do
    let fbv ← facesByVertex o.v.data.length o.f
    pure (fbv, o.f, o.normalized)

/-- `compute_r` after `on_changed`: the rows of the result, and the object afterwards.  normals.py:54-91 -/
def VertObj.read (o : VertObj α) : PyM (List (V3 α) × VertObj α) := do
  let k ← o.onChanged
  let tns ← triNormalsScaled o.v.data k.2.1
  let normals ← normalsOf k.1 tns k.2.2
  let rows ← rows3 normals
  pure (rows, { o with fChanged := false, kept := some k })

end Blmath.Normals
