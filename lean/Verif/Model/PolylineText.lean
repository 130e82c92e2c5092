import Verif.Model.Polyline
import Verif.Model.ValueText

/-!
Model of `Polyline.to_dict` and `Polyline.__repr__`.  `np.around` of a float is rounding to places with halves to even,
taken as exact.
-/

namespace Blmath.Geometry
variable {α : Type} [Num α] [Trig α]

/-- the dictionary of `to_dict`: the entries of the key `vertices` and of the key `edges` -/
structure PolylineDict (α : Type) where
  vertices : List (List α)
  edges : Option (List (ℕ × ℕ))

namespace Polyline
variable (p : Polyline α)

/-- `to_dict(decimals)`; `None` is not iterable.  polyline.py:62-66 -/
def toDict (decimals : ℤ := 3) : PyM (PolylineDict α) :=
  match p.v with
  | none => raise .TypeError
  | some v => .ok ⟨v.map fun q => q.toList.map fun x => pyRoundPlaces .py3 x decimals, p.e⟩

/-- `__repr__`.  polyline.py:34-41 -/
def repr : List Char :=
  match p.v with
  | none => "<Polyline with no verts>".toList
  | some v =>
    if v.length = 0 then "<Polyline with no verts>".toList
    else if p.closed then "<closed Polyline with ".toList ++ decimal v.length ++ " verts>".toList
    else "<open Polyline with ".toList ++ decimal v.length ++ " verts>".toList

end Polyline
end Blmath.Geometry
