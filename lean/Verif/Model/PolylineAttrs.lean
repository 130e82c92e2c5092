import Verif.Model.Polyline
import Verif.Base.Dict

/-!
Model of attribute access on polylines: the descriptor `setter_property` of `blmath/util/decorators.py`, the properties of
`blmath/geometry/primitives/polyline.py`, and Python's rules for reading, assigning and deleting attributes.  Here the object is its
`__dict__`, and anything may be assigned to any attribute; `Model/Polyline.lean` has a record with a Boolean in the place of `closed`.
Not covered: assignment to `__class__`, `__dict__` and `__weakref__`, to attributes of the class, and direct access to `p.__dict__`.
-/

namespace Blmath.Geometry.Attrs
variable {α : Type} [Num α]

/-- What an attribute may hold: None; a 2-dimensional float array, or a nested list of numbers made into one; an array of edges; anything
else that cannot be called, known by a number, with its truth value (or the exception that asking for it raises). -/
inductive PyObj (α : Type) where
  | none
  | array (ncols : ℕ) (rows : List (List α))
  | edges (es : List (ℕ × ℕ))
  | thing (id : ℕ) (truth : PyM Bool)

/-- `bool(x)` (language; numpy).  An array has the truth value of its only element; an empty one is false (a deprecated rule of numpy, kept
by the versions the project is tested with), any other raises. -/
def truth : PyObj α → PyM Bool
  | .none => .ok false
  | .array n rows =>
    if n * rows.length = 0 then .ok false
    else match rows with
      | [[x]] => .ok (!Num.eq x (Num.lit 0))
      | _ => raise .ValueError
  | .edges es => if es.length = 0 then .ok false else raise .ValueError
  | .thing _ t => t

/-- the value as an argument of `as_numeric_array`.  coercion.py:1-46 -/
def asVArg : PyObj α → VArg α
  | .none => .none
  | .array n rows => .mat n rows
  | .edges es => .mat 2 (es.map fun e => [Num.lit (e.1 : ℚ), Num.lit (e.2 : ℚ)])
  | .thing _ _ => .other

/-- the `__dict__` of a polyline -/
abbrev Inst (α : Type) := Dict String (PyObj α)

/-- the names that are `setter_property` objects of the class.  polyline.py:85, 96 -/
def setters : List String := ["v", "closed"]

/-- the names that are properties without a setter.  polyline.py:105-106, 114-115, 121-122, 132-133, 140-141 -/
def readOnly : List String := ["e", "segments", "segment_lengths", "total_length", "segment_vectors"]

/-- the other names defined by the class.  polyline.py:22-66, 148-359 -/
def methods : List String :=
  ["__init__", "__repr__", "__len__", "copy", "as_lines", "to_dict", "_update_edges", "flip", "reindexed", "partition_by_length", "apex",
   "intersect_plane", "_cut_by_plane_open", "_cut_by_plane_closed", "cut_by_plane"]

/-- `setter_property.__get__(obj, cls)` for an instance.  decorators.py:10-14 -/
def descriptorGet (d : Inst α) (name : String) : PyObj α :=
  match d.get? name with
  | some x => x
  | none => .none

/-- the method `_update_edges`.  polyline.py:68-83.  Anything but an array has no `shape`. -/
def updateEdges (d : Inst α) : Inst α × PyM Unit :=
  match descriptorGet d "v" with
  | .none => (d.set "e" .none, .ok ())
  | .array _ rows =>
    match truth (descriptorGet d "closed") with
    | .error err => (d, .error err)
    | .ok c =>
      match mkEdges rows.length c with
      | .ok e => (d.set "e" (.edges e), .ok ())
      | .error err => (d, .error err)
  | _ => (d, raise .AttributeError)

/-- the call `self._update_edges()`.  polyline.py:94, 103.  The method is looked up in the `__dict__` first, where an assignment to
`p._update_edges` may have put something else; nothing that can be assigned here can be called. -/
def callUpdateEdges (d : Inst α) : Inst α × PyM Unit :=
  if d.contains "_update_edges" then (d, raise .TypeError) else updateEdges d

/-- the array kept for points -/
def ofPoints : Option (List (V3 α)) → PyObj α
  | Option.none => .none
  | some ps => .array 3 (ps.map V3.toList)

/-- the function decorated as `v`.  polyline.py:85-94 -/
def setV (d : Inst α) (val : PyObj α) : Inst α × PyM Unit :=
  match asPoints (asVArg val) with
  | .error err => (d, .error err)
  | .ok v => callUpdateEdges (d.set "v" (ofPoints v))

/-- the function decorated as `closed`.  polyline.py:96-103 -/
def setClosed (d : Inst α) (val : PyObj α) : Inst α × PyM Unit := callUpdateEdges (d.set "closed" val)

/-- `setter_property.__set__(obj, value)`.  decorators.py:15-16 -/
def descriptorSet (d : Inst α) (name : String) (val : PyObj α) : Inst α × PyM Unit :=
  if name = "v" then setV d val else setClosed d val

/-- `setter_property.__delete__(obj)`.  decorators.py:17-18 -/
def descriptorDelete (d : Inst α) (name : String) : Inst α × PyM Unit := descriptorSet d name .none

/-- `p.name = val` (language): descriptors with `__set__` first; a property without setter raises; else the `__dict__` -/
def setAttr (d : Inst α) (name : String) (val : PyObj α) : Inst α × PyM Unit :=
  if name ∈ setters then descriptorSet d name val
  else if name ∈ readOnly then (d, raise .AttributeError)
  else (d.set name val, .ok ())

/-- `del p.name` (language) -/
def delAttr (d : Inst α) (name : String) : Inst α × PyM Unit :=
  if name ∈ setters then descriptorDelete d name
  else if name ∈ readOnly then (d, raise .AttributeError)
  else if d.contains name then (d.del name, .ok ())
  else (d, raise .AttributeError)

/-- what reading an attribute gives: an object, the result of calling the getter of a property, or a method -/
inductive Read (α : Type) where
  | obj (x : PyObj α)
  | computed (name : String)
  | method (name : String)

/-- `p.name` (language): descriptors with `__set__` first, then the `__dict__`, then the class.  `e` looks into the `__dict__`
(polyline.py:105-112); the other properties are computed from `v` and `e`. -/
def getAttr (d : Inst α) (name : String) : PyM (Read α) :=
  if name ∈ setters then .ok (.obj (descriptorGet d name))
  else if name = "e" then match d.get? "e" with
    | some x => .ok (.obj x)
    | Option.none => raise .KeyError
  else if name ∈ readOnly then .ok (.computed name)
  else match d.get? name with
    | some x => .ok (.obj x)
    | Option.none => if name ∈ methods then .ok (.method name) else raise .AttributeError

/-- `Polyline.name`: the descriptors are asked with None in the place of the object.  A property answers with itself; `setter_property`
asks for `None.__dict__`.  decorators.py:10-11 -/
def getClassAttr (name : String) : PyM (Read α) :=
  if name ∈ setters then raise .AttributeError
  else if name ∈ readOnly then .ok (.computed name)
  else if name ∈ methods then .ok (.method name)
  else raise .AttributeError

/-- `Polyline(v, closed)`: the object as far as made, with the outcome.  polyline.py:22-32 -/
def init (v closed : PyObj α) : Inst α × PyM Unit := setV (Dict.set [] "closed" closed) v

/-- `bool(p)` (language): there being no `__bool__` or `__nonzero__`, `len(p) != 0`.  polyline.py:43-44 -/
def boolOf (d : Inst α) : PyM Bool :=
  match descriptorGet d "v" with
  | .array _ rows => .ok (rows.length != 0)
  | .edges es => .ok (es.length != 0)
  | _ => raise .TypeError

/-- an assignment or a deletion -/
inductive Op (α : Type) where
  | set (name : String) (val : PyObj α)
  | del (name : String)

/-- one step of a history -/
def step (d : Inst α) : Op α → Inst α × PyM Unit
  | .set name val => setAttr d name val
  | .del name => delAttr d name

/-- the object after a history, steps that raised included -/
def run (d : Inst α) (ops : List (Op α)) : Inst α := ops.foldl (fun d op => (step d op).1) d

end Blmath.Geometry.Attrs
