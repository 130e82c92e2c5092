import Verif.Model.Composite
import Verif.Base.Dict

/-!
Model of `blmath/geometry/transform/coordinate_manager.py`.  Tag names are strings.  An object with
an attribute `v` is represented by that attribute and everything else it carries, of type `β`;
copying it keeps the latter.
-/

namespace Blmath.Geometry
open Blmath.Vx
variable {α β : Type} [Num α] [Trig α]

/-- an array of points, or an object with an attribute `v` (an array or `None`) -/
inductive PointsOrMesh (α β : Type) where
  | points (a : Arr α)
  | mesh (v : Option (Arr α)) (rest : β)

/-- coordinate_manager.py:18-30; `pom` is the attribute `points_or_mesh`, absent before the first
assignment -/
structure CoordMgr (α β : Type) where
  tags : Dict String ℕ
  pointsTag : Option String
  pom : Option (PointsOrMesh α β)
  transform : Composite α

/-- `__init__`.  coordinate_manager.py:18-30 -/
def CoordMgr.init : CoordMgr α β := ⟨[], none, none, []⟩

/-- `tag_as`.  coordinate_manager.py:47-61 -/
def CoordMgr.tagAs (st : CoordMgr α β) (name : String) : CoordMgr α β :=
  { st with tags := st.tags.set name st.transform.length }

/-- `self.tags_to_indices[tag]` inside the `try`: on Python 3 building the message of the new KeyError
fails with AttributeError, there being no `e.message`.  coordinate_manager.py:74-78 -/
def CoordMgr.index (ver : PyVer) (st : CoordMgr α β) (tag : String) : PyM ℕ :=
  match st.tags.get? tag with
  | some i => .ok i
  | none => match ver with
    | .py2 => raise .KeyError
    | .py3 => raise .AttributeError

/-- the points carried over from one state to another.  coordinate_manager.py:80-87 -/
def CoordMgr.move (st : CoordMgr α β) (points : Arr α) (fromIndex toIndex : ℕ) : PyM (Arr α) :=
  if fromIndex = toIndex then .ok points
  else if fromIndex < toIndex then
    callT st.transform points (some (some (fromIndex : ℤ), some (toIndex : ℤ))) false
  else callT st.transform points (some (some (toIndex : ℤ), some (fromIndex : ℤ))) true

/-- `do_transform`.  coordinate_manager.py:63-97 -/
def CoordMgr.doTransform (ver : PyVer) (st : CoordMgr α β) (x : PointsOrMesh α β) (fromTag toTag : String) :
    PyM (PointsOrMesh α β) :=
  match x with
  | .mesh none rest => .ok (.mesh none rest)
  | .mesh (some v) rest => do
    let i ← st.index ver fromTag
    let j ← st.index ver toTag
    let r ← st.move v i j
    pure (.mesh (some r) rest)
  | .points a => do
    let i ← st.index ver fromTag
    let j ← st.index ver toTag
    let r ← st.move a i j
    pure (.points r)

/-- `__setattr__`.  coordinate_manager.py:99-108 -/
def CoordMgr.setAttr (st : CoordMgr α β) (name : String) (value : PointsOrMesh α β) : CoordMgr α β × PyM Unit :=
  if st.tags.contains name then ({ st with pointsTag := some name, pom := some value }, .ok ())
  else (st, raise .AttributeError)

/-- names found on the object before `__getattr__` is consulted: methods, the entries of `__dict__`,
and what every object has.  coordinate_manager.py:18-45, 47, 63, 99, 110 -/
def ownNames : List String :=
  ["append_transform4", "append_transform3", "scale", "convert_units", "translate", "reorient", "rotate",
   "tag_as", "do_transform", "tags_to_indices", "points_tag", "points", "_transform",
   "__init__", "__setattr__", "__getattr__", "__class__", "__delattr__", "__dict__", "__dir__", "__doc__", "__eq__",
   "__format__", "__ge__", "__getattribute__", "__getstate__", "__gt__", "__hash__", "__init_subclass__", "__le__", "__lt__",
   "__module__", "__ne__", "__new__", "__reduce__", "__reduce_ex__", "__repr__", "__sizeof__", "__str__",
   "__subclasshook__", "__weakref__"]

/-- what reading an attribute gives: the object's own attribute, or the result of `__getattr__` -/
inductive Attr (α β : Type) where
  | own (name : String)
  | value (x : PointsOrMesh α β)

/-- reading `manager.name`; `__getattr__` is coordinate_manager.py:110-118.  After an assignment
`points_or_mesh` is an own attribute as well. -/
def CoordMgr.getAttr (ver : PyVer) (st : CoordMgr α β) (name : String) : PyM (Attr α β) :=
  if name ∈ ownNames then .ok (.own name)
  else match st.pointsTag, st.pom with
    | some tag, some x =>
      if name = "points_or_mesh" then .ok (.own name)
      else do
        let r ← st.doTransform ver x tag name
        pure (.value r)
    | _, _ => raise .ValueError

/-- one operation of a program using the manager -/
inductive MOp (α β : Type) where
  | transform (op : TOp α)
  | tag (name : String)
  | set (name : String) (value : PointsOrMesh α β)

/-- the manager after the operation, whether or not it raised.  The transform methods pass their
arguments on.  coordinate_manager.py:32-45 -/
def CoordMgr.step (inv : Mat 4 4 α → PyM (Mat 4 4 α)) (svd : Svd3 α) (st : CoordMgr α β) : MOp α β → CoordMgr α β
  | .transform op => { st with transform := stepT inv svd st.transform op }
  | .tag name => st.tagAs name
  | .set name x => (st.setAttr name x).1

/-- the manager after a program -/
def CoordMgr.run (inv : Mat 4 4 α → PyM (Mat 4 4 α)) (svd : Svd3 α) (st : CoordMgr α β) (ops : List (MOp α β)) : CoordMgr α β :=
  ops.foldl (CoordMgr.step inv svd) st

end Blmath.Geometry
