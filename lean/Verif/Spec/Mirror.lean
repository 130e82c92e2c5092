import Verif.Base.V3
import Verif.Spec.Motion

/-!
Mirror images: the moves of space that only exchange the x and y axes or reverse axes.
-/

namespace Blmath.Spec
open Blmath Blmath.Geometry
variable {α : Type} [Num α]

/-- laws of signs, and sums that do not depend on the order of two terms -/
structure Signs (α : Type) [Num α] : Prop where
  neg_neg : ∀ x : α, - -x = x
  neg_add : ∀ x y : α, -x + -y = -(x + y)
  neg_sub : ∀ x y : α, -x - -y = -(x - y)
  anti : ∀ x y : α, -(x - y) = y - x
  mul_neg : ∀ x y : α, x * -y = -(x * y)
  neg_mul : ∀ x y : α, -x * y = -(x * y)
  neg_div : ∀ x y : α, -x / y = -(x / y)
  add_comm : ∀ x y : α, x + y = y + x
  lt : ∀ x y : α, Num.lt (-x) (-y) = Num.lt y x
  eq : ∀ x y : α, Num.eq (-x) (-y) = Num.eq x y
  abs : ∀ x : α, npAbs (-x) = npAbs x
  nan : -(Num.lit 0 / Num.lit 0 : α) = Num.lit 0 / Num.lit 0

/-- one reflection: an axis reversed, or the x and y axes exchanged -/
inductive Flip where
  | x | y | z | xy
  deriving DecidableEq

/-- the image of a vector -/
def Flip.act : Flip → V3 α → V3 α
  | .x, v => ⟨-v.x, v.y, v.z⟩
  | .y, v => ⟨v.x, -v.y, v.z⟩
  | .z, v => ⟨v.x, v.y, -v.z⟩
  | .xy, v => ⟨v.y, v.x, v.z⟩

/-- several reflections, the last of the list first -/
def moved (w : List Flip) (v : V3 α) : V3 α := w.foldr Flip.act v

/-- the vector, reversed if the number of reflections is odd -/
def handed (w : List Flip) (v : V3 α) : V3 α := if w.length % 2 = 0 then v else -v

/-- the plane moved -/
def Plane.moved (w : List Flip) (pl : Plane α) : Plane α := ⟨Spec.moved w pl.r0, Spec.moved w pl.n⟩

end Blmath.Spec
