import Verif.Base.Num
import Verif.Base.Py
import Verif.Model.Normals

/-!
Model of `blmath/numerics/matlab.py`.

An array is its shape and the list of its elements in row order; only arrays of rank 2 are given to `bsxfun`
(others raise before anything of interest happens).  `oper` is a parameter: any binary operation that numpy applies
element by element after broadcasting.
-/

namespace Blmath.Matlab
variable {β γ : Type}

/-- a numpy array with two axes; the elements in row order -/
structure Arr2 (β : Type) where
  nrow : ℕ
  ncol : ℕ
  data : List β
  deriving DecidableEq, Repr

/-- element (i, j) -/
def Arr2.get? (a : Arr2 β) (i j : ℕ) : Option β := if j < a.ncol then a.data[i * a.ncol + j]? else none

/-- the array with the given elements -/
def ofFn (m n : ℕ) (f : Fin m → Fin n → β) : Arr2 β :=
  ⟨m, n, (List.ofFn f).flatMap List.ofFn⟩

/-- the length of one axis after broadcasting; `none` if the lengths do not fit -/
def bcast (m n : ℕ) : Option ℕ := if m = n then some m else if m = 1 then some n else if n = 1 then some m else none

/-- `oper(a, b)` for an element by element operation, with the broadcasting of numpy -/
def elementwise (op : β → β → γ) (a b : Arr2 β) : PyM (Arr2 γ) :=
  match bcast a.nrow b.nrow, bcast a.ncol b.ncol with
  | some m, some n =>
    let at? (x : Arr2 β) (i j : ℕ) : Option β := x.get? (if x.nrow = 1 then 0 else i) (if x.ncol = 1 then 0 else j)
    let data := (List.range m).flatMap fun i => (List.range n).filterMap fun j =>
      match at? a i j, at? b i j with
      | some x, some y => some (op x y)
      | _, _ => none
    .ok ⟨m, n, data⟩
  | _, _ => raise .ValueError

/-- `np.tile(a, (k, 1))`: the array `k` times, one below the other -/
def tileRows (a : Arr2 β) (k : ℕ) : Arr2 β := ⟨k * a.nrow, a.ncol, (List.replicate k a.data).flatten⟩

/-- `bsxfun`.  In the last but one branch the parentheses are misplaced: the tuple given to `np.tile` contains the array
`b`, and asking whether that differs from 1 raises ValueError, `b` having more than one element there (with one
element, the number of rows or that of columns would be equal).  matlab.py:1-11 -/
def bsxfun (op : β → β → γ) (a b : Arr2 β) : PyM (Arr2 γ) :=
  if a.nrow = b.nrow ∨ a.ncol = b.ncol then elementwise op a b
  else if min a.nrow a.ncol = 1 ∧ min b.nrow b.ncol = 1 then
    if a.nrow = 1 then elementwise op (tileRows a b.nrow) b
    else raise .ValueError
  else raise .GenericException

/-- `row`.  matlab.py:13-14 -/
def row (data : List β) : Arr2 β := ⟨1, data.length, data⟩

/-- `col`.  matlab.py:16-17 -/
def col (data : List β) : Arr2 β := ⟨data.length, 1, data⟩

/-- the two arguments `m` and `n` of `sparse` -/
inductive ShapeArg where
  | none
  | onlyRows (m : ℕ)
  | both (m n : ℕ)

/-- `sparse` for arrays with the elements `i`, `j` and `data`; the sparse matrix is its list of entries, where those at
the same place add up.  matlab.py:19-27 -/
def sparse {α : Type} [Num α] (i j : List ℤ) (data : List α) (shape : ShapeArg) : PyM (Linalg.Entries α) :=
  if i.length ≠ j.length then raise .ValueError
  else
    let entries := i.zip (j.zip data)
    match shape with
    | .none =>
      if i.length ≠ data.length then raise .ValueError
      else if i = [] then raise .ValueError
      else Normals.cscFromEntries entries ((i.foldl max 0).toNat + 1) ((j.foldl max 0).toNat + 1)
    | .onlyRows _ => raise .TypeError
    | .both m n =>
      if i.length ≠ data.length then raise .ValueError
      else Normals.cscFromEntries entries m n

end Blmath.Matlab
