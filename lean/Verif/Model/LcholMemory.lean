import Verif.Model.Lchol

/-!
Memory in `blmath/numerics/linalg/cholmod.c`: references to Python objects, blocks that belong to CHOLMOD, null pointers
and sizes of buffers.  What the C language or a library leaves undefined is the outcome `ub`.  Attribute lookup runs no
Python code; `shape` is a pair; the shrinking `realloc` of `sputil_trim` does not fail.  The four values returned go into a
tuple whose creation does not fail.
-/

namespace Blmath.Linalg.CMem
variable {α : Type}

/-- the Python objects `lchol_c` handles: five attributes of its argument, four new arrays -/
inductive PyObj where
  | shape | indptr | indices | data | nnz | outIndices | outIndptr | outData | outPerm
  deriving DecidableEq

/-- what belongs to CHOLMOD: the workspace `Common`, the factor `L`, the matrix `Lsparse` -/
inductive Blk where
  | common | factor | sparse
  deriving DecidableEq

/-- the references that the call holds, the blocks in use, and the objects passed on to the caller -/
structure Mem where
  refs : PyObj → ℤ
  live : Blk → Bool
  given : List PyObj

/-- nothing held, nothing in use -/
def Mem.empty : Mem := ⟨fun _ => 0, fun _ => false, []⟩

/-- `k` more references to an object -/
def Mem.ref (m : Mem) (o : PyObj) (k : ℤ) : Mem := { m with refs := fun o' => if o' = o then m.refs o' + k else m.refs o' }

/-- a block comes into use, or is freed -/
def Mem.block (m : Mem) (b : Blk) (v : Bool) : Mem := { m with live := fun b' => if b' = b then v else m.live b' }

/-- an object is passed on to the caller -/
def Mem.hand (m : Mem) (o : PyObj) : Mem := { m.ref o (-1) with given := m.given ++ [o] }

/-- a value, a null pointer returned to Python (an exception), or undefined behaviour -/
inductive Res (β : Type) where
  | ok (b : β) (m : Mem)
  | null (m : Mem)
  | ub

/-- statements of C -/
def CM (β : Type) := Mem → Res β

instance : Monad CM where
  pure b := fun m => .ok b m
  bind x f := fun m => match x m with
    | .ok b m => f b m
    | .null m => .null m
    | .ub => .ub

/-- the buffer of an array: numbers of `size` bytes each -/
inductive Buf (α : Type) where
  | ints (size : ℕ) (l : List ℕ)
  | reals (size : ℕ) (l : List α)

/-- its length in bytes -/
def Buf.bytes : Buf α → ℕ
  | .ints s l => s * l.length
  | .reals s l => s * l.length

/-- a Python object with the attributes of a sparse matrix; `none`: there is no such attribute -/
structure SpArg (α : Type) where
  shape : Option (ℕ × ℕ)
  indptr : Option (Buf α)
  indices : Option (Buf α)
  data : Option (Buf α)
  nnz : Option ℕ

/-- CHOLMOD: `cholmod_l_analyze` and `cholmod_l_factorize` give a factor (its `minor` and `Perm`), or NULL;
`cholmod_l_factor_to_sparse` gives a matrix, or NULL -/
structure Lib (α : Type) where
  factor : Csc α → Option (ℕ × List ℕ)
  sparse : Csc α → Option (Csc α)

/-- how bytes of other numbers look when read as 64-bit integers or as doubles -/
structure Bits (α : Type) where
  toInts : Buf α → ℕ → List ℕ
  toReals : Buf α → ℕ → List α

/-- undefined behaviour -/
def ub {β : Type} : CM β := fun _ => .ub

/-- `return NULL` -/
def retNull {β : Type} : CM β := fun m => .null m

/-- the pointer is followed -/
def deref {β : Type} : Option β → CM β
  | none => ub
  | some b => pure b

/-- `PyObject_GetAttrString`: a new reference, or NULL -/
def getAttr {β : Type} (o : PyObj) : Option β → CM (Option β)
  | none => pure none
  | some b => fun m => .ok (some b) (m.ref o 1)

/-- an object is used: a reference to it has to be held -/
def held (o : PyObj) : CM Unit := fun m => if 0 < m.refs o then .ok () m else .ub

/-- `Py_DECREF`, of a reference that is held -/
def decref {β : Type} (o : PyObj) : Option β → CM Unit
  | none => ub
  | some _ => fun m => if 0 < m.refs o then .ok () (m.ref o (-1)) else .ub

/-- a block comes into use -/
def alloc (b : Blk) : CM Unit := fun m => .ok () (m.block b true)

/-- a block is freed, not twice -/
def free (b : Blk) : CM Unit := fun m => if m.live b then .ok () (m.block b false) else .ub

/-- a block is used -/
def use (b : Blk) : CM Unit := fun m => if m.live b then .ok () m else .ub

/-- `PyArray_SimpleNew` of `n` numbers of 8 bytes; `mem` tells whether there is memory for it -/
def newArr (mem : PyObj → Bool) (o : PyObj) (n : ℕ) : CM (Option ℕ) :=
  if mem o then fun m => .ok (some n) (m.ref o 1) else pure none

/-- `memcpy` of all the bytes of the array `o` of `n` numbers, from a buffer of such numbers -/
def memcpy {β : Type} (o : PyObj) (n : Option ℕ) (src : List β) : CM (List β) := do
  let n ← deref n
  held o
  if src.length < n then ub else pure (src.take n)

/-- `N` in `Py_BuildValue`: the reference, which is held, goes to the tuple -/
def give (o : PyObj) : CM Unit := fun m => if 0 < m.refs o then .ok () (m.hand o) else .ub

/-- CHOLMOD reads `n` integers -/
def readInts (bits : Bits α) (b : Buf α) (n : ℕ) : CM (List ℕ) :=
  if b.bytes < 8 * n then ub else
    match b with
    | .ints 8 l => pure (l.take n)
    | b => pure (bits.toInts b n)

/-- CHOLMOD reads `n` doubles -/
def readReals (bits : Bits α) (b : Buf α) (n : ℕ) : CM (List α) :=
  if b.bytes < 8 * n then ub else
    match b with
    | .reals 8 l => pure (l.take n)
    | b => pure (bits.toReals b n)

/-- `cholmod_l_analyze` and `cholmod_l_factorize` of a matrix that is to be symmetric: NULL if it is not square.
cholmod.c:211-212 -/
def analyze (lib : Lib α) (bits : Bits α) (nrow ncol : ℕ) (p i x : Buf α) : CM (Option (Csc α × ℕ × List ℕ)) := do
  use .common
  if nrow ≠ ncol then pure none
  else
    let indptr ← readInts bits p (ncol + 1)
    let nz := indptr.getLast?.getD 0
    let indices ← readInts bits i nz
    let data ← readReals bits x nz
    let A : Csc α := ⟨nrow, ncol, indptr, indices, data⟩
    match lib.factor A with
    | none => pure none
    | some (minor, perm) =>
      alloc .factor
      pure (some (A, minor, perm))

/-- `cholmod_l_factor_to_sparse`; NULL for NULL.  cholmod.c:213 -/
def factorToSparse (lib : Lib α) (L : Option (Csc α × ℕ × List ℕ)) : CM (Option (Csc α)) := do
  use .common
  match L with
  | none => pure none
  | some (A, _) =>
    use .factor
    match lib.sparse A with
    | none => pure none
    | some S =>
      alloc .sparse
      pure (some S)

/-- `sputil_trim`; `cholmod_l_reallocate_sparse` keeps room for one entry at least, whose value is what it was.
cholmod.c:28-59 -/
def trim (S : Option (Csc α)) (k : ℕ) : CM (Option (Csc α)) :=
  match S with
  | none => pure none
  | some S => do
    use .sparse
    if k ≥ S.ncol then pure (some S)
    else
      use .common
      let p := S.indptr.take (k + 1)
      let nznew ← deref p[k]?
      pure (some { S with ncol := k, indptr := p, indices := S.indices.take (max 1 nznew), data := S.data.take (max 1 nznew) })

/-- `lchol_c`; the argument is `none` if it was not called with exactly one.  The length of `indices` stands for `nzmax`.
cholmod.c:162-252 -/
def lcholC (lib : Lib α) (bits : Bits α) (mem : PyObj → Bool) (args : Option (SpArg α)) :
    CM (List ℕ × List ℕ × List α × ℕ × List ℕ) := do
  alloc .common
  match args with
  | none => retNull
  | some a =>
    let inShape ← getAttr .shape a.shape
    let (nrow, ncol) ← deref inShape
    held .shape
    decref .shape inShape
    let jc ← getAttr .indptr a.indptr
    let ir ← getAttr .indices a.indices
    let adata ← getAttr .data a.data
    let nnz ← getAttr .nnz a.nnz
    let p ← deref jc
    let i ← deref ir
    let x ← deref adata
    held .indptr
    held .indices
    held .data
    let L ← analyze lib bits nrow ncol p i x
    let lsparse ← factorToSparse lib L
    let (_, minor, _) ← deref L
    use .factor
    let lsparse ← (if minor < ncol then trim lsparse minor else pure lsparse)
    let S ← deref lsparse
    use .sparse
    let indices ← newArr mem .outIndices S.indices.length
    let indptr ← newArr mem .outIndptr (S.ncol + 1)
    let ldata ← newArr mem .outData S.indices.length
    let perm ← newArr mem .outPerm ncol
    use .sparse
    let outI ← memcpy .outIndices indices S.indices
    let outP ← memcpy .outIndptr indptr S.indptr
    let outX ← memcpy .outData ldata S.data
    use .factor
    let (_, _, perm') ← deref L
    let outQ ← memcpy .outPerm perm perm'
    decref .indptr jc
    decref .indices ir
    decref .data adata
    decref .nnz nnz
    free .factor
    free .sparse
    use .common
    free .common
    give .outIndices
    give .outIndptr
    give .outData
    give .outPerm
    pure (outI, outP, outX, if minor = ncol then 0 else minor + 1, outQ)

/-- the index arrays are converted to 64 bits, the data are not.  lchol.py:7-10 -/
def widen : Buf α → Buf α
  | .ints _ l => .ints 8 l
  | b => b

/-- the argument that `lchol` passes on: a copy, with other index arrays; without these attributes there is an
AttributeError.  lchol.py:7-12 -/
def a64 (a : SpArg α) : PyM (SpArg α) :=
  match a.indices, a.indptr with
  | some i, some p => .ok { a with indices := some (widen i), indptr := some (widen p) }
  | _, _ => raise .AttributeError

end Blmath.Linalg.CMem
