import Verif.Spec.Motion
import Verif.Spec.Units
import Verif.Spec.Rotation
import Verif.Spec.Transform
import Verif.Model.Composite

/-!
By how much a call on a composite transform enlarges lengths, and what part of a list a range names.
-/

namespace Blmath.Spec
open Blmath.Geometry

/-- What a call does to lengths: `some c`, it adds a transform that multiplies them by `c`; `none`, it raises. -/
inductive Grows (svd : Svd3 ℝ) : TOp ℝ → Option ℝ → Prop
  | scale {x : ℝ} : 0 < x → Grows svd (.scale x) (some x)
  | badScale {x : ℝ} : x ≤ 0 → Grows svd (.scale x) none
  /-- lengths in `a` become lengths in `b` -/
  | units {a b : String} {A B : UnitDef} : UnitIs a A → UnitIs b B → A.cls = "length" → B.cls = "length" →
      Grows svd (.convertUnits (some a) (some b)) (some (A.size / B.size))
  /-- the same unit twice, whatever it is -/
  | sameUnit (a : Option String) : Grows svd (.convertUnits a a) (some 1)
  /-- two units of which one at least is no length -/
  | notLength {a b : String} {A B : UnitDef} : a ≠ b → UnitIs a A → UnitIs b B → (A.cls ≠ "length" ∨ B.cls ≠ "length") →
      Grows svd (.convertUnits (some a) (some b)) none
  | unknownUnit {a b : String} : a ≠ b → (Unknown a ∨ Unknown b) → Grows svd (.convertUnits (some a) (some b)) none
  | translate (v : V3 ℝ) : Grows svd (.translate v) (some 1)
  | reorient {up look : V3 ℝ} : cross3 up look ≠ zero3 → Grows svd (.reorient up look) (some 1)
  | badReorient {up look : V3 ℝ} : cross3 up look = zero3 → Grows svd (.reorient up look) none
  | rotateVec (v : V3 ℝ) : Grows svd (.rotate (.vec v)) (some 1)
  | rotate {r : RotArg ℝ} {R : Matrix (Fin 3) (Fin 3) ℝ} : asRotationMatrix svd r = .ok R → Grows svd (.rotate r) (some 1)
  | badRotate {r : RotArg ℝ} {e : PyErr} : asRotationMatrix svd r = .error e → Grows svd (.rotate r) none
  /-- an explicit matrix that multiplies all distances by `c`, with no reverse or the right one -/
  | matrix4 {f : Matrix (Fin 4) (Fin 4) ℝ} {r : Option (Matrix (Fin 4) (Fin 4) ℝ)} {c : ℝ} : Affine f → Similarity (affMap f) c →
      (∀ b, r = some b → b * f = 1) → Grows svd (.append4 f r) (some c)
  | matrix3 {f : Matrix (Fin 3) (Fin 3) ℝ} {c : ℝ} : Similarity (act f) c → Grows svd (.append3 (.mat f) none) (some c)
  | matrix33 {f r : Matrix (Fin 3) (Fin 3) ℝ} {c : ℝ} : Similarity (act f) c → r * f = 1 →
      Grows svd (.append3 (.mat f) (some (.mat r))) (some c)
  | badMatrix (k : ℕ) (r : Option (Mat33Arg ℝ)) : Grows svd (.append3 (.wrong k) r) none

/-- the factors of the transforms that were added, in order -/
def added (cs : List (Option ℝ)) : List ℝ := cs.filterMap id

/-- the entries a range names; no range names all -/
def ranged {γ : Type} (xs : List γ) : Option (Option ℤ × Option ℤ) → List γ
  | none => xs
  | some (a, b) => pySlice xs (a.getD 0) (b.getD xs.length)

end Blmath.Spec
