import Verif.Base.Dict
import Verif.Base.Py
import Mathlib.Data.Finset.Card
import Mathlib.Data.Finset.Erase
import Mathlib.Data.Finset.Insert

/-!
Model of the local class `Graph` of `Plane.mesh_xsections`.  plane.py:327-377

Two things are left open by the language and are parameters here: the element removed by
`set.pop()` (`Picker`) and the iteration order of a dict (`KeyOrder`).
-/

namespace Blmath.Geometry

/-- adjacency sets, `self.d` -/
abbrev Adj := Dict ℕ (Finset ℕ)

/-- `Graph`.  plane.py:327-331 -/
structure Graph where
  size : ℕ
  d : Adj

/-- The behaviour of `set.pop()`: at the `k`-th call, an element of the set. -/
structure Picker where
  pick : ℕ → Finset ℕ → ℕ
  mem : ∀ k s, s.Nonempty → pick k s ∈ s

/-- The iteration order of the keys of a dict: some permutation of them. -/
structure KeyOrder where
  order : Adj → List ℕ
  perm : ∀ d, (order d).Perm d.keys

namespace Graph

/-- `Graph(size)`.  plane.py:329-331 -/
def new (size : ℕ) : Graph := ⟨size, []⟩

/-- `u >= 0 and u < self.size`, where `u` may be None: comparing None raises TypeError in Python 3
and is False (for `>=`) in Python 2.  plane.py:338-339 -/
def checkVertex (ver : PyVer) (size : ℕ) : Option ℕ → PyM ℕ
  | none => match ver with
    | .py3 => raise .TypeError
    | .py2 => raise .AssertionError
  | some u => if u < size then .ok u else raise .AssertionError

/-- the set stored for `u`, created empty if missing -/
def touch (d : Adj) (u : ℕ) : Adj := if d.contains u then d else d.set u ∅

/-- `self.d[u].add(v)` -/
def addTo (d : Adj) (u v : ℕ) : Adj :=
  match d.get? u with
  | some s => d.set u (insert v s)
  | none => d

/-- `add_edge`.  plane.py:337-345 -/
def addEdge (ver : PyVer) (g : Graph) (u v : Option ℕ) : PyM Graph := do
  let u ← checkVertex ver g.size u
  let v ← checkVertex ver g.size v
  let d := touch (touch g.d u) v
  pure { g with d := addTo (addTo d u v) v u }

/-- `if u in self.d and v in self.d[u]: self.d[u].remove(v)` -/
def dropFrom (d : Adj) (u v : ℕ) : Adj :=
  match d.get? u with
  | some s => if v ∈ s then d.set u (s.erase v) else d
  | none => d

/-- `if v in self.d and len(self.d[v]) == 0: del self.d[v]` -/
def prune (d : Adj) (v : ℕ) : Adj :=
  match d.get? v with
  | some s => if s.card = 0 then d.del v else d
  | none => d

/-- `remove_edge`.  plane.py:346-354 -/
def removeEdge (d : Adj) (u v : ℕ) : Adj :=
  prune (prune (dropFrom (dropFrom d u v) v u) v) u

/-- total number of entries of the adjacency sets: the termination measure of the loop -/
def entries (d : Adj) : ℕ := (d.map fun kv => kv.2.card).sum

theorem entries_set_lt (d : Adj) (v : ℕ) (s s' : Finset ℕ) (h : d.get? v = some s)
    (hc : s'.card < s.card) : entries (d.set v s') < entries d := by
  induction d with
  | nil => simp at h
  | cons a d ih =>
    obtain ⟨k, t⟩ := a
    rw [Dict.get?_cons] at h
    by_cases hk : k = v
    · rw [if_pos hk] at h
      injection h with h
      subst h
      simp [entries, Dict.set, hk, hc]
    · rw [if_neg hk] at h
      have := ih h
      simp only [entries, Dict.set, hk, if_false, List.map_cons, List.sum_cons] at *
      omega

theorem entries_del_le (d : Adj) (v : ℕ) : entries (d.del v) ≤ entries d := by
  induction d with
  | nil => simp [Dict.del]
  | cons a d ih =>
    obtain ⟨k, t⟩ := a
    by_cases hk : k = v
    · simp [entries, Dict.del, hk]
    · simp only [entries, Dict.del, hk, if_false, List.map_cons, List.sum_cons] at *
      omega

theorem entries_dropFrom_le (d : Adj) (u v : ℕ) : entries (dropFrom d u v) ≤ entries d := by
  unfold dropFrom
  split
  · rename_i s hs
    split
    · rename_i hv
      exact (entries_set_lt d u s _ hs (Finset.card_erase_lt_of_mem hv)).le
    · exact le_rfl
  · exact le_rfl

theorem entries_prune_le (d : Adj) (v : ℕ) : entries (prune d v) ≤ entries d := by
  unfold prune
  split
  · split
    · exact entries_del_le d v
    · exact le_rfl
  · exact le_rfl

theorem entries_removeEdge_le (d : Adj) (u v : ℕ) : entries (removeEdge d u v) ≤ entries d := by
  unfold removeEdge
  calc _ ≤ _ := entries_prune_le _ _
    _ ≤ _ := entries_prune_le _ _
    _ ≤ _ := entries_dropFrom_le _ _ _
    _ ≤ _ := entries_dropFrom_le _ _ _

/-- The main loop of `pop_euler_path`.  plane.py:369-377.  The Python lists `stack` and `path` grow
at the end; here their last elements come first.  `k` counts the calls of `set.pop()`; popping an
empty set raises KeyError. -/
def eulerLoop (pk : Picker) (k : ℕ) (stack path : List ℕ) (d : Adj) : PyM (List ℕ × Adj) :=
  match stack with
  | [] => .ok (path, d)
  | v :: rest =>
    match h : d.get? v with
    | some s =>
      if hs : s.Nonempty then
        let u := pk.pick k s
        eulerLoop pk (k + 1) (u :: v :: rest) path (removeEdge (d.set v (s.erase u)) u v)
      else raise .KeyError
    | none => eulerLoop pk k rest (v :: path) d
termination_by (entries d, stack.length)
decreasing_by
  · apply Prod.Lex.left
    calc entries _ ≤ entries (d.set v (s.erase (pk.pick k s))) := entries_removeEdge_le _ _ _
      _ < entries d := entries_set_lt d v s _ h (Finset.card_erase_lt_of_mem (pk.mem k s hs))
  · apply Prod.Lex.right
    simp

/-- `len(self.d[x]) & 1`.  plane.py:362 -/
def oddDegree (d : Adj) (x : ℕ) : Bool :=
  match d.get? x with
  | some s => s.card % 2 == 1
  | none => false

/-- `pop_euler_path`: the path (None when refused) and the graph left over.  plane.py:355-377.
An empty graph makes `next` raise StopIteration.  The path is in the order it was appended. -/
def popEulerPath (pk : Picker) (ko : KeyOrder) (g : Graph) (allowMultiple : Bool := true) :
    PyM (Option (List ℕ) × Graph) :=
  let odd := (ko.order g.d).filter (oddDegree g.d)
  match ko.order g.d with
  | [] => raise .StopIteration
  | first :: _ =>
    let odd := odd ++ [first]
    if !allowMultiple && decide (odd.length > 3) then .ok (none, g)
    else match odd with
      | [] => raise .IndexError
      | start :: _ => do
        let (path, d) ← eulerLoop pk 0 [start] [] g.d
        pure (some path.reverse, { g with d := d })

end Graph
end Blmath.Geometry
