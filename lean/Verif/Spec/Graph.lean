import Verif.Model.EulerPath
import Mathlib.Logic.Relation

/-!
Vocabulary for undirected graphs and walks.
-/

namespace Blmath.Geometry

/-- the neighbours of `v` -/
def adj (d : Adj) (v : ℕ) : Finset ℕ :=
  match d.get? v with
  | some s => s
  | none => ∅

/-- The state of a `Graph` between calls: unique keys, no empty sets, symmetric, no loops. -/
structure GoodGraph (d : Adj) : Prop where
  nodup : d.keys.Nodup
  nonempty : ∀ v s, d.get? v = some s → s.Nonempty
  symm : ∀ u v, v ∈ adj d u → u ∈ adj d v
  loopless : ∀ v, v ∉ adj d v

/-- is the pair `x, y` the edge between `a` and `b` -/
def isEdge (a b x y : ℕ) : ℕ := if (x = a ∧ y = b) ∨ (x = b ∧ y = a) then 1 else 0

/-- how often the walk `l` uses the edge between `a` and `b` -/
def uses (a b : ℕ) : List ℕ → ℕ
  | x :: y :: l => isEdge a b x y + uses a b (y :: l)
  | _ => 0

/-- 1 if `b` is a neighbour of `a` -/
def ind (A : ℕ → Finset ℕ) (a b : ℕ) : ℕ := if b ∈ A a then 1 else 0

/-- `v` is in the connected component of `s` -/
def Reach (G : ℕ → Finset ℕ) (s v : ℕ) : Prop :=
  Relation.ReflTransGen (fun a b => b ∈ G a) s v

/-- consecutive vertices are neighbours -/
def IsWalk (G : ℕ → Finset ℕ) (l : List ℕ) : Prop := l.IsChain fun a b => b ∈ G a

/-- The walk `l` uses every edge of the connected component of `s` exactly once, and no other. -/
def UsesComponent (G : ℕ → Finset ℕ) (s : ℕ) (l : List ℕ) : Prop :=
  (∀ a b, Reach G s a → uses a b l = ind G a b) ∧ ∀ a b, ¬ Reach G s a → uses a b l = 0

end Blmath.Geometry
