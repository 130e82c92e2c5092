import Verif.Model.MeshSlice
import Verif.Model.Polyline

/-!
`Plane.mesh_xsections` and `Plane.mesh_xsection` with the polylines they build.  `MeshSlice.lean` stops at the arguments of
the `Polyline(...)` constructions; here the constructor is called, which checks them.  plane.py:238-249, 412-422
-/

namespace Blmath.Geometry
variable {α : Type} [Num α]

/-- `Polyline(v, closed=closed)`.  plane.py:413, 422 -/
def Section.build (c : Section α) : PyM (Polyline α) := Polyline.new (rowsOf c.v) c.closed

/-- `mesh_xsections`, the list of polylines.  plane.py:256-422 -/
def Plane.meshPolylines (ver : PyVer) (pk : ℕ → Picker) (ko : ℕ → KeyOrder) (pl : Plane α) (m : Mesh α)
    (neighborhood : Option (V3 α × List (V3 α)) := none) : PyM (List (Polyline α)) := do
  let cs ← pl.meshXsections ver pk ko m neighborhood
  cs.mapM Section.build

/-- `mesh_xsection`, one polyline.  `np.vstack` of the vertices of the components.  plane.py:238-249 -/
def Plane.meshPolyline (ver : PyVer) (pk : ℕ → Picker) (ko : ℕ → KeyOrder) (pl : Plane α) (m : Mesh α)
    (neighborhood : Option (V3 α × List (V3 α)) := none) : PyM (Polyline α) := do
  let components ← pl.meshPolylines ver pk ko m neighborhood
  if components.length = 0 then Polyline.new .none
  else do
    let vs ← components.mapM Polyline.vArr
    Polyline.new (rowsOf vs.flatten) true

end Blmath.Geometry
