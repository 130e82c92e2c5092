import Verif.Model.Value

/-!
Model of `blmath/util/json.py` at the level of JSON trees.

`simplejson`'s text encoding is trusted to be faithful on trees whose dict keys are
strings, without repetition (floats are written with `repr`).  What the project itself contributes is the `for_json` encoding of `Value`
and the `object_hook` decoder, applied by simplejson to every decoded object, innermost first.
-/

namespace Blmath
variable {α : Type} [Num α] [Trig α]

/-- Python objects that occur in serialised data.  `ndarray` and `sparse` stand for the results
of the `np.array(...)` / `sp.coo_matrix(...)` calls on the given arguments. -/
inductive Obj (α : Type) where
  | null
  | bool (b : Bool)
  | num (x : α)
  | str (s : String)
  | list (xs : List (Obj α))
  | dict (kvs : List (String × Obj α))
  | value (v : Value α)
  | ndarray (data : Obj α) (dtype : Option (Obj α))
  | sparse (args : List (String × Obj α))

namespace Json

/-- a unit name as JSON -/
def ofUnits : Option String → Obj α
  | none => .null
  | some u => .str u

/-- `Value.for_json`.  value.py:175-180 -/
def forJson (v : Value α) : Obj α :=
  .dict [("__value__", .dict [("value", .num v.value), ("units", ofUnits v.units)])]

mutual
/-- `dumps(obj)` up to the JSON tree (json.py:24-25, 32-33, `for_json=True`).  Arrays and
sparse matrices are not serialisable: `TypeError`. -/
def encode : Obj α → PyM (Obj α)
  | .null => .ok .null
  | .bool b => .ok (.bool b)
  | .num x => .ok (.num x)
  | .str s => .ok (.str s)
  | .list xs => do
    let ys ← encodeList xs
    pure (.list ys)
  | .dict kvs => do
    let ys ← encodeDict kvs
    pure (.dict ys)
  | .value v => .ok (forJson v)
  | .ndarray _ _ => raise .TypeError
  | .sparse _ => raise .TypeError
/-- the elements of a list -/
def encodeList : List (Obj α) → PyM (List (Obj α))
  | [] => .ok []
  | x :: xs => do
    let y ← encode x
    let ys ← encodeList xs
    pure (y :: ys)
/-- the items of a dict -/
def encodeDict : List (String × Obj α) → PyM (List (String × Obj α))
  | [] => .ok []
  | (k, x) :: xs => do
    let y ← encode x
    let ys ← encodeDict xs
    pure ((k, y) :: ys)
end

/-- What decoding depends on besides the data: the version of Python, `float` of a string (`none`: ValueError), `float` of
an array (of one element), and whether the calls that make arrays and sparse matrices raise.  json.py:11-19 -/
structure Env (α : Type) where
  ver : PyVer
  floatOfStr : String → Option α
  floatOfArray : Obj α → Option (Obj α) → PyM α
  makeArray : Obj α → Option (Obj α) → PyM Unit
  makeSparse : List (String × Obj α) → PyM Unit

variable (env : Env α)

/-- the argument `value` of the constructor, made a number by `float`.  value.py:28-33 -/
def toFloat : Obj α → PyM (Option α)
  | .null => .ok none
  | .num x => .ok (some x)
  | .bool b => .ok (some (Num.lit (if b then 1 else 0)))
  | .value v => .ok (some v.value)
  | .str s => match env.floatOfStr s with
    | some x => .ok (some x)
    | none => raise .ValueError
  | .ndarray d t => do
    let x ← env.floatOfArray d t
    pure (some x)
  | _ => raise .TypeError

/-- can be hashed: of the objects here, None, numbers and strings.  A class with `__eq__` and no `__hash__` cannot, in
Python 3.  value.py:157 -/
def hashable : Obj α → Bool
  | .null => true
  | .bool _ => true
  | .num _ => true
  | .str _ => true
  | _ => false

/-- the argument `units` of the constructor.  `units not in all_units` (value.py:14, units.py:46) asks a list in Python 2, a
view of a dict in Python 3, where what cannot be hashed raises TypeError.  What is not a string is not in it.  (Not
modelled: in Python 2 an array of one unit name is equal to that name.) -/
def toUnits : Obj α → PyM (Option String)
  | .null => .ok none
  | .str s => .ok (some s)
  | x => match env.ver with
    | .py2 => raise .ValueError
    | .py3 => if hashable x then raise .ValueError else raise .TypeError

/-- `Value(**x)` in `from_json`.  value.py:7, 188.  Unknown keyword
arguments, a missing `value`, or a non-mapping are `TypeError`s; `units` defaults to `None`. -/
def ofKeywords (x : Obj α) : PyM (Value α) :=
  match x with
  | .dict kvs =>
    if kvs.all (fun kv => kv.1 == "value" || kv.1 == "units") then
      match Dict.get? kvs "value" with
      | none => raise .TypeError
      | some v => do
        let v' ← toFloat env v
        match v' with
        | none => raise .ValueError
        | some v' => do
          let u ← match Dict.get? kvs "units" with
            | none => .ok none
            | some u => toUnits env u
          Value.make (some v') u
    else raise .TypeError
  | _ => raise .TypeError

/-- `Value.from_json(data)`: `Value(**data['__value__'])`.  value.py:182-188.  Numbers, strings, lists and `None` cannot be
indexed by a string: TypeError. -/
def fromJson : Obj α → PyM (Value α)
  | .dict kvs => match Dict.get? kvs "__value__" with
    | some x => ofKeywords env x
    | none => raise .KeyError
  | _ => raise .TypeError

/-- `decode_json(dct)`, the object hook.  json.py:7-21 -/
def decodeHook (kvs : List (String × Obj α)) : PyM (Obj α) :=
  match Dict.get? kvs "__value__" with
  | some _ => do
    let v ← fromJson env (.dict kvs)
    pure (.value v)
  | none => match Dict.get? kvs "__ndarray__" with
    | some x => do
      env.makeArray x (Dict.get? kvs "dtype")
      pure (.ndarray x (Dict.get? kvs "dtype"))
    | none =>
      if Dict.contains kvs "__scipy.sparse.sparsematrix__" then
        if ["dtype", "shape", "data", "format", "row", "col"].all (Dict.contains kvs ·)
        then do
          env.makeSparse kvs
          pure (.sparse kvs)
        else pure (.dict kvs)
      else pure (.dict kvs)

mutual
/-- `loads(text)` from the JSON tree on: bottom-up application of the hook.
json.py:28-29, 36-37 -/
def decode : Obj α → PyM (Obj α)
  | .list xs => do
    let ys ← decodeList xs
    pure (.list ys)
  | .dict kvs => do
    let ys ← decodeDict kvs
    decodeHook env ys
  | x => .ok x
/-- the elements of a list -/
def decodeList : List (Obj α) → PyM (List (Obj α))
  | [] => .ok []
  | x :: xs => do
    let y ← decode x
    let ys ← decodeList xs
    pure (y :: ys)
/-- the items of an object -/
def decodeDict : List (String × Obj α) → PyM (List (String × Obj α))
  | [] => .ok []
  | (k, x) :: xs => do
    let y ← decode x
    let ys ← decodeDict xs
    pure ((k, y) :: ys)
end

end Json
end Blmath
