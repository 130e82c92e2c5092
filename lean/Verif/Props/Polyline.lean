import Verif.Proofs.Polyline
import Verif.Proofs.MeshGraph
import Verif.Proofs.Vx
import Verif.Proofs.Numerics
import Mathlib.Data.List.Rotate
import Mathlib.Algebra.Order.Floor.Ring
import Mathlib.Algebra.Order.Floor.Semiring

/-!
Properties C34-C37: the polyline object, its lengths, partition, flip and reindexing.
-/

namespace Blmath.Props
open Blmath.Geometry Blmath.Spec Blmath.Proofs Blmath.Vx

/-! ### C34: edges always match the vertices -/

/-- the edge list is the one belonging to the vertices and the closedness -/
def EdgesMatch {α : Type} (p : Polyline α) : Prop :=
  p.e = p.v.map fun v => chainEdges v.length p.closed

/-- closed, with a vertex array of no rows -/
def Hollow {α : Type} (p : Polyline α) : Prop := p.closed = true ∧ p.v = some []

/-- `p` is closed with a vertex array of no rows and still has the edges of `q` -/
def HollowFrom {α : Type} (q p : Polyline α) : Prop := Hollow p ∧ p.e = q.e

/-- everything that changes a polyline -/
inductive PolyOp (α : Type) where
  | setV (a : VArg α)
  | delV
  | setClosed (b : Bool)
  | flip
  | partition (maxLength : α)

/-- the object after the operation, whether it succeeds or raises, and the exception if any -/
def PolyOp.run {α : Type} [Num α] (p : Polyline α) : PolyOp α → Polyline α × Option PyErr
  | .setV a => ((p.setV a).1, errOf (p.setV a).2)
  | .delV => ((p.setV .none).1, errOf (p.setV .none).2)
  | .setClosed b => ((p.setClosed b).1, errOf (p.setClosed b).2)
  | .flip => (p.flip.1, errOf p.flip.2)
  | .partition l => ((p.partitionByLength l).1, errOf (p.partitionByLength l).2)
where
  /-- the exception raised, if any -/
  errOf {β : Type} : PyM β → Option PyErr
    | .ok _ => none
    | .error e => some e

variable {α : Type} [Num α]

theorem updateEdges_spec (p : Polyline α) :
    (p.updateEdges.2 = .ok () ∧ EdgesMatch p.updateEdges.1) ∨
    (p.updateEdges.2 = .error .IndexError ∧ HollowFrom p p.updateEdges.1) := by
  unfold Polyline.updateEdges
  cases hv : p.v with
  | none => left; exact ⟨rfl, by simp [EdgesMatch, hv]⟩
  | some v =>
    simp only
    by_cases h : p.closed = true ∧ v = []
    · right
      obtain ⟨h1, rfl⟩ := h
      rw [h1]
      exact ⟨rfl, ⟨h1, hv⟩, rfl⟩
    · left
      rw [mkEdges_eq _ _ (fun hc h0 => h ⟨hc, by simpa using h0⟩)]
      exact ⟨rfl, by simp [EdgesMatch, hv]⟩

theorem setV_spec (p : Polyline α) (a : VArg α) :
    ((p.setV a).2 = .ok () ∧ EdgesMatch (p.setV a).1) ∨
    ((∃ e, (p.setV a).2 = .error e) ∧ (HollowFrom p (p.setV a).1 ∨ (p.setV a).1 = p)) := by
  unfold Polyline.setV
  cases ha : asPoints a with
  | error e => right; exact ⟨⟨e, rfl⟩, Or.inr rfl⟩
  | ok v =>
    rcases updateEdges_spec { p with v := v } with h | ⟨h1, h2⟩
    · exact Or.inl h
    · exact Or.inr ⟨⟨_, h1⟩, Or.inl h2⟩

/-- One operation on any object: if it returns, the edges match afterwards; if it raises, the object
is unchanged, or is now a closed polyline without vertices that has kept its edges. -/
theorem C34_step (p : Polyline α) (op : PolyOp α) :
    ((op.run p).2 = none ∧ EdgesMatch (op.run p).1) ∨
    ((∃ e, (op.run p).2 = some e) ∧ ((op.run p).1 = p ∨ HollowFrom p (op.run p).1)) := by
  have key : ∀ a, ((p.setV a).2 = .ok () ∧ EdgesMatch (p.setV a).1) ∨
    ((∃ e, (p.setV a).2 = .error e) ∧ (HollowFrom p (p.setV a).1 ∨ (p.setV a).1 = p)) := setV_spec p
  have lift : ∀ (x : Polyline α × PyM Unit),
      ((x.2 = .ok () ∧ EdgesMatch x.1) ∨ ((∃ e, x.2 = .error e) ∧ (HollowFrom p x.1 ∨ x.1 = p))) →
      ((PolyOp.run.errOf x.2 = none ∧ EdgesMatch x.1) ∨
        ((∃ e, PolyOp.run.errOf x.2 = some e) ∧ (x.1 = p ∨ HollowFrom p x.1))) := by
    rintro x (⟨h1, h2⟩ | ⟨⟨e, h1⟩, h2⟩)
    · left; rw [h1]; exact ⟨rfl, h2⟩
    · right; rw [h1]; exact ⟨⟨e, rfl⟩, h2.symm⟩
  cases op with
  | setV a => exact lift _ (key a)
  | delV => exact lift (p.setV .none) (key .none)
  | setClosed b =>
    apply lift
    rcases updateEdges_spec { p with closed := b } with h | ⟨h1, h2⟩
    · exact Or.inl h
    · exact Or.inr ⟨⟨_, h1⟩, Or.inl h2⟩
  | flip =>
    apply lift
    unfold Polyline.flip
    cases p.v with
    | none => right; exact ⟨⟨_, rfl⟩, Or.inr rfl⟩
    | some v => exact key _
  | partition l =>
    simp only [PolyOp.run]
    unfold Polyline.partitionByLength
    split
    · right; exact ⟨⟨_, rfl⟩, Or.inl rfl⟩
    · rename_i indices newV _
      rcases key (rowsOf newV) with ⟨h1, h2⟩ | ⟨⟨e, h1⟩, h2⟩
      · left
        generalize p.setV (rowsOf newV) = x at *
        obtain ⟨x1, x2⟩ := x
        simp only at h1 h2
        subst h1
        exact ⟨rfl, h2⟩
      · right
        generalize p.setV (rowsOf newV) = x at *
        obtain ⟨x1, x2⟩ := x
        simp only at h1 h2
        subst h1
        exact ⟨⟨e, rfl⟩, h2.symm⟩

/-- **C34.** After every history of mutations of a constructed polyline, failed ones included, the
edges are those of the vertices, except while the polyline is closed and has an array of no vertices;
then the edges are those of the vertices at some earlier point of the history. -/
theorem C34_history (arg : VArg α) (closed : Bool) (p0 : Polyline α)
    (h0 : Polyline.new arg closed = .ok p0) (ops : List (PolyOp α)) :
    let after := fun n => (ops.take n).foldl (fun q op => (op.run q).1) p0
    EdgesMatch (after ops.length) ∨
    (Hollow (after ops.length) ∧
      ∃ n < ops.length, EdgesMatch (after n) ∧ (after ops.length).e = (after n).e) := by
  have hinit : EdgesMatch p0 := by
    unfold Polyline.new at h0
    rcases setV_spec (⟨none, closed, none⟩ : Polyline α) arg with ⟨h1, h2⟩ | ⟨⟨e, h1⟩, h2⟩
    · generalize Polyline.setV (⟨none, closed, none⟩ : Polyline α) arg = x at *
      obtain ⟨x1, x2⟩ := x
      simp only at h1 h2
      subst h1
      injection h0 with h0
      rw [← h0]; exact h2
    · generalize Polyline.setV (⟨none, closed, none⟩ : Polyline α) arg = x at *
      obtain ⟨x1, x2⟩ := x
      simp only at h1 h2
      subst h1
      cases h0
  intro after
  have step : ∀ m ≤ ops.length, EdgesMatch (after m) ∨
      (Hollow (after m) ∧ ∃ n < m, EdgesMatch (after n) ∧ (after m).e = (after n).e) := by
    intro m
    induction m with
    | zero => intro _; exact Or.inl hinit
    | succ m ih =>
      intro hm
      have hlt : m < ops.length := hm
      have hs : after (m + 1) = (ops[m].run (after m)).1 := by
        simp only [after]
        rw [← List.take_concat_get' ops m hlt, List.foldl_append]
        rfl
      rw [hs]
      rcases C34_step (after m) ops[m] with ⟨_, h2⟩ | ⟨_, h2 | ⟨h2, h3⟩⟩
      · exact Or.inl h2
      · rw [h2]
        rcases ih hlt.le with h | ⟨h, n, hn, h4, h5⟩
        · exact Or.inl h
        · exact Or.inr ⟨h, n, by omega, h4, h5⟩
      · refine Or.inr ⟨h2, ?_⟩
        rcases ih hlt.le with h | ⟨h, n, hn, h4, h5⟩
        · exact ⟨m, by omega, h, h3⟩
        · exact ⟨n, by omega, h4, h3.trans h5⟩
  exact step ops.length le_rfl

/-- **C34.** If no operation of the history raises, the edges always match. -/
theorem C34_no_failure (p0 : Polyline α) (h0 : EdgesMatch p0) (ops : List (PolyOp α))
    (hok : ∀ n, (h : n < ops.length) →
      (ops[n].run ((ops.take n).foldl (fun q op => (op.run q).1) p0)).2 = none) :
    EdgesMatch (ops.foldl (fun q op => (op.run q).1) p0) := by
  induction ops using List.reverseRecOn with
  | nil => exact h0
  | append_singleton ops op _ =>
    rw [List.foldl_append]
    have h := hok ops.length (by simp)
    simp only [List.getElem_append_right le_rfl, Nat.sub_self, List.getElem_cons_zero,
      List.take_left'] at h
    rcases C34_step (ops.foldl (fun q op => (op.run q).1) p0) op with ⟨_, h2⟩ | ⟨⟨e, h1⟩, _⟩
    · exact h2
    · rw [h1] at h; cases h

/-- **C34.** In any such state with vertices, the object is the one described by its vertices and
closedness alone; the other properties start from here. -/
theorem C34_determined (p : Polyline α) (v : List (V3 α)) (h : EdgesMatch p) (hv : p.v = some v) :
    p = poly v p.closed := by
  unfold EdgesMatch at h
  rw [hv] at h
  obtain ⟨v', c, e⟩ := p
  simp only at h hv
  subst hv; subst h
  rfl

/-- **C34.** The exception does happen: assigning an array of no rows to a closed polyline raises
IndexError and leaves the new (empty) vertices with the edges of the old ones. -/
theorem C34_hollow :
    let p : Polyline ℝ := poly [⟨1, 2, 3⟩, ⟨4, 5, 6⟩] true
    Polyline.new (rowsOf [⟨1, 2, 3⟩, ⟨4, 5, 6⟩]) true = .ok p ∧
    (p.setV (.mat 3 [])).2 = .error .IndexError ∧ (p.setV (.mat 3 [])).1.v = some [] ∧
    (p.setV (.mat 3 [])).1.e = some [(0, 1), (1, 0)] := by
  refine ⟨new_real _ _ (by simp), rfl, rfl, rfl⟩

/-- a history with failures in it: close, wrong assignment, reopen, flip -/
example : let p0 : Polyline ℝ := poly [⟨1, 2, 3⟩, ⟨4, 5, 6⟩] false
    Polyline.new (rowsOf [⟨1, 2, 3⟩, ⟨4, 5, 6⟩]) false = .ok p0 ∧
    ((PolyOp.setV (VArg.other : VArg ℝ)).run p0).2 = some .ValueError ∧
    ((PolyOp.setClosed true : PolyOp ℝ).run p0).1.e = some [(0, 1), (1, 0)] := by
  refine ⟨new_real _ _ (by simp), rfl, rfl⟩

/-- **C34.** What an assignment to `v` stores: the rows given, if finite. -/
theorem C34_assign (p : Polyline Fl) (v : List (V3 Fl)) (h : p.closed = true → v ≠ []) :
    ((∀ q ∈ v, Fl.IsFinite q.x ∧ Fl.IsFinite q.y ∧ Fl.IsFinite q.z) →
      p.setV (rowsOf v) = (poly v p.closed, .ok ())) ∧
    ((∃ q ∈ v, ¬ (Fl.IsFinite q.x ∧ Fl.IsFinite q.y ∧ Fl.IsFinite q.z)) →
      p.setV (rowsOf v) = (p, .error .ValueError)) := by
  have key : ∀ x : Fl, (npIsNan x || npIsInf x) = true ↔ ¬ Fl.IsFinite x := by
    intro x
    rw [Numerics.npIsNan_eq, Numerics.npIsInf_eq, Fl.isFinite_iff]
    cases x.isNaN <;> cases x.isInf <;> simp
  constructor
  · intro hf
    apply setV_ok p _ v _ h
    apply asPoints_rowsOf
    intro q hq x hx
    obtain ⟨h1, h2, h3⟩ := hf q hq
    have : Fl.IsFinite x := by
      simp only [V3.toList, List.mem_cons, List.not_mem_nil, or_false] at hx
      rcases hx with rfl | rfl | rfl <;> assumption
    rw [Numerics.npIsNan_eq, Numerics.npIsInf_eq]
    exact (Fl.isFinite_iff x).mp this
  · rintro ⟨q, hq, hn⟩
    have : asPoints (rowsOf v) = .error .ValueError := by
      unfold asPoints rowsOf
      simp only
      rw [if_pos]
      simp only [List.any_map, List.any_eq_true]
      refine ⟨q, hq, ?_⟩
      simp only [Function.comp, V3.toList, List.any_cons, List.any_nil, Bool.or_false, Bool.or_eq_true (_ || _),
        key]
      tauto
    unfold Polyline.setV
    rw [this]

/-- **C34.** A 3 × n array with n ≠ 3 is taken as columns, without warning. -/
theorem C34_transposed (p : Polyline ℝ) (a b : V3 ℝ) :
    p.setV (.mat 2 [[a.x, b.x], [a.y, b.y], [a.z, b.z]]) = (poly [a, b] p.closed, .ok ()) := by
  have hn : ∀ x : ℝ, npIsNan x = false ∧ npIsInf x = false := fun x =>
    finite_real [⟨x, x, x⟩] ⟨x, x, x⟩ (by simp) x (by simp [V3.toList])
  apply setV_ok p _ [a, b] _ (by simp)
  simp [asPoints, hn]

/-- **C34.** Arrays of other shapes are rejected and change nothing. -/
theorem C34_rejected (p : Polyline α) (n : ℕ) (hn : n ≠ 3) (rows : List (List α)) (hr : rows.length ≠ 3) :
    p.setV (.mat n rows) = (p, .error .ValueError) ∧ p.setV .other = (p, .error .ValueError) := by
  refine ⟨?_, rfl⟩
  have : asPoints (.mat n rows) = .error .ValueError := by
    show (if rows.any fun r => r.any fun x => npIsNan x || npIsInf x then _ else _) = _
    split
    · rfl
    · split
      · simp at hr
      · rfl
  unfold Polyline.setV
  rw [this]

/-- **C34.** `copy` gives an equal object. -/
theorem C34_copy (v : List (V3 ℝ)) (closed : Bool) (h : closed = true → v ≠ []) :
    (poly v closed).copy = .ok (poly v closed) ∧ (poly v closed).len = .ok v.length ∧
    Polyline.copy (⟨none, closed, none⟩ : Polyline ℝ) = .ok ⟨none, closed, none⟩ :=
  ⟨new_real v closed h, rfl, rfl⟩

/-- **C34.** A polyline made without saying so is open. -/
theorem C34_default_open (v : List (V3 ℝ)) : Polyline.new (rowsOf v) = .ok (poly v false) :=
  new_real v false (by simp)

/-! ### C35: lengths -/

/-- **C35.** The segment lengths are the distances between the consecutive vertices (the closing
segment last), and the total length their sum. -/
theorem C35_lengths (v : List (V3 ℝ)) (closed : Bool) :
    (poly v closed).segmentLengths = .ok ((chainSegs v closed).map fun s => dist3 s.1 s.2) ∧
    (poly v closed).totalLength = .ok (pathLength (circuit v closed)) := by
  refine ⟨segmentLengths_real v closed, ?_⟩
  unfold Polyline.totalLength
  rw [segmentLengths_real]
  simp only [ok_bind, pure_eq_ok, sumL_real]
  rfl

/-- **C35.** The segments and their vectors, in edge order. -/
theorem C35_vectors (v : List (V3 ℝ)) (closed : Bool) :
    (poly v closed).segments = .ok (chainSegs v closed) ∧
    (poly v closed).segmentVectors = .ok ((chainSegs v closed).map fun s => vec3 s.1 s.2) := by
  refine ⟨segments_eq v closed, ?_⟩
  unfold Polyline.segmentVectors
  rw [segments_eq]
  rfl

/-- **C35.** A polyline without vertices (None) has no segments and length 0. -/
theorem C35_none (closed : Bool) :
    Polyline.segmentLengths (⟨none, closed, none⟩ : Polyline ℝ) = .ok [] ∧
    Polyline.totalLength (⟨none, closed, none⟩ : Polyline ℝ) = .ok 0 := by
  refine ⟨rfl, ?_⟩
  simp [Polyline.totalLength, Polyline.segmentLengths, Vx.sumL]

theorem pathLength_nonneg (v : List (V3 ℝ)) : 0 ≤ pathLength v := by
  apply List.sum_nonneg
  intro x hx
  rw [List.mem_map] at hx
  obtain ⟨s, _, rfl⟩ := hx
  exact len3_nonneg _

/-- **C35.** The total length is at least the distance from the first to the last vertex; for a
closed polyline at least twice that distance. -/
theorem C35_at_least (v : List (V3 ℝ)) (closed : Bool) (a b : V3 ℝ) (ha : v.head? = some a)
    (hb : v.getLast? = some b) (L : ℝ) (hL : (poly v closed).totalLength = .ok L) :
    dist3 a b ≤ L ∧ (closed = true → 2 * dist3 a b ≤ L) := by
  rw [(C35_lengths v closed).2] at hL
  injection hL with hL
  subst hL
  have h1 := pathLength_ge v a b ha hb
  cases closed with
  | false => exact ⟨by simpa [circuit] using h1, by simp⟩
  | true =>
    have hne : v ≠ [] := by rintro rfl; simp at ha
    have e : circuit v true = v.dropLast ++ b :: [a] := by
      have : v = v.dropLast ++ [b] := by
        rw [List.getLast?_eq_some_getLast hne] at hb
        injection hb with hb
        rw [← hb, List.dropLast_append_getLast hne]
      unfold circuit
      rw [if_pos rfl, ha]
      nth_rewrite 1 [this]
      simp
    have e' : v = v.dropLast ++ [b] := by
      rw [List.getLast?_eq_some_getLast hne] at hb
      injection hb with hb
      rw [← hb, List.dropLast_append_getLast hne]
    have h2 : pathLength (circuit v true) = pathLength v + dist3 b a := by
      rw [e, pathLength_append, ← e']
      simp [pathLength, pairs]
    have h3 : 0 ≤ dist3 b a := len3_nonneg _
    rw [h2]
    refine ⟨by linarith, fun _ => ?_⟩
    rw [dist3_comm b a]
    linarith

theorem pathLength_join (xs ys : List (V3 ℝ)) (x y : V3 ℝ) (hx : xs.getLast? = some x)
    (hy : ys.head? = some y) :
    pathLength (xs ++ ys) = pathLength xs + dist3 x y + pathLength ys := by
  have hne : xs ≠ [] := by rintro rfl; simp at hx
  have e' : xs = xs.dropLast ++ [x] := by
    rw [List.getLast?_eq_some_getLast hne] at hx
    injection hx with hx
    rw [← hx, List.dropLast_append_getLast hne]
  cases ys with
  | nil => simp at hy
  | cons y' ys =>
    simp at hy
    subst hy
    have e2 : xs ++ y' :: ys = xs.dropLast ++ x :: (y' :: ys) := by
      nth_rewrite 1 [e']
      simp
    rw [e2, pathLength_append, ← e', pathLength_cons]
    ring

theorem circuit_length (v : List (V3 ℝ)) (a b : V3 ℝ) (ha : v.head? = some a)
    (hb : v.getLast? = some b) : pathLength (circuit v true) = pathLength v + dist3 b a := by
  unfold circuit
  rw [if_pos rfl, ha]
  rw [pathLength_join v _ b a hb rfl]
  simp [pathLength, pairs]

/-- **C37.** `flip` reverses the vertices and keeps closedness; edges are rebuilt. -/
theorem C37_flip (v : List (V3 ℝ)) (closed : Bool) (h : closed = true → v ≠ []) :
    (poly v closed).flip = (poly v.reverse closed, .ok ()) := by
  unfold Polyline.flip
  exact setV_ok (poly v closed) _ v.reverse (asPoints_real _) (fun hc => by simpa using h hc)

/-- **C37.** Flipping twice gives back the same object. -/
theorem C37_flip_flip (v : List (V3 ℝ)) (closed : Bool) (h : closed = true → v ≠ []) :
    (poly v closed).flip.1.flip = (poly v closed, .ok ()) := by
  rw [C37_flip v closed h]
  simp only
  rw [C37_flip v.reverse closed (fun hc => by simpa using h hc), List.reverse_reverse]

/-- **C37.** Without vertices `flip` raises ValueError and changes nothing. -/
theorem C37_flip_none (closed : Bool) (e : Option (List (ℕ × ℕ))) :
    Polyline.flip (⟨none, closed, e⟩ : Polyline α) = (⟨none, closed, e⟩, .error .ValueError) := rfl

/-- **C35.** Flipping does not change the total length. -/
theorem C35_flip (v : List (V3 ℝ)) (closed : Bool) (h : closed = true → v ≠ []) :
    (poly v closed).flip.1.totalLength = (poly v closed).totalLength := by
  rw [C37_flip v closed h]
  simp only
  rw [(C35_lengths _ _).2, (C35_lengths _ _).2]
  congr 1
  cases closed with
  | false => simpa [circuit] using pathLength_reverse v
  | true =>
    have hne := h rfl
    have ha := List.head?_eq_some_head hne
    have hb := List.getLast?_eq_some_getLast hne
    rw [circuit_length v _ _ ha hb,
      circuit_length v.reverse (v.getLast hne) (v.head hne) (by simp [hb]) (by simp [ha]),
      pathLength_reverse, dist3_comm]

theorem pySlice_rotate (v : List (V3 α)) (i : ℕ) (hi : i ≤ v.length) :
    pySlice v (i : ℤ) v.length ++ pySlice v 0 (i : ℤ) = v.rotate i := by
  rw [List.rotate_eq_drop_append_take hi]
  unfold pySlice sliceBound
  have h1 : ¬ (i : ℤ) < 0 := by omega
  have h2 : ¬ (v.length : ℤ) < 0 := by omega
  simp only [h1, h2, if_false, Int.toNat_natCast, min_self, Nat.min_eq_left hi, lt_irrefl, List.take_length]
  simp

theorem arange_nat (a b : ℕ) : Polyline.arange (a : ℤ) (b : ℤ) =
    ((List.range (b - a)).map fun (i : ℕ) => ((a + i : ℕ) : ℤ)) := by
  unfold Polyline.arange
  have : ((b : ℤ) - a).toNat = b - a := by omega
  rw [this]
  apply List.map_congr_left
  intro i _
  push_cast; rfl

/-- **C37.** `reindexed(i)` for `0 ≤ i ≤ n` on a closed polyline: the closed polyline of the rotated
vertices, with the edge mapping `i, …, n-1, 0, …, i-1`. -/
theorem C37_reindexed (v : List (V3 ℝ)) (hne : v ≠ []) (i : ℕ) (hi : i ≤ v.length) :
    ∃ mapping : List ℤ, (poly v true).reindexed (i : ℤ) = .ok (poly (v.rotate i) true, mapping) ∧
      mapping.length = v.length ∧
      ∀ k, k < v.length → mapping[k]? = some (((i + k) % v.length : ℕ) : ℤ) := by
  refine ⟨Polyline.arange (i : ℤ) v.length ++ Polyline.arange 0 i, ?_, ?_, ?_⟩
  · unfold Polyline.reindexed Polyline.vArr
    simp only [poly, Bool.not_true, Bool.false_eq_true, if_false, ok_bind]
    rw [pySlice_rotate v i hi, new_real _ _ (fun _ => by simpa using hne)]
    rfl
  · rw [arange_nat, show (0 : ℤ) = ((0 : ℕ) : ℤ) from rfl, arange_nat]
    simp; omega
  · intro k hk
    rw [arange_nat, show (0 : ℤ) = ((0 : ℕ) : ℤ) from rfl, arange_nat]
    by_cases h : k < v.length - i
    · rw [List.getElem?_append_left (by simpa using h)]
      rw [Nat.mod_eq_of_lt (by omega)]
      simp [h]
    · rw [List.getElem?_append_right (by simpa using Nat.not_lt.mp h)]
      have hk2 : k - (v.length - i) < i := by omega
      have e : (i + k) % v.length = k - (v.length - i) := by
        rw [Nat.mod_eq_sub_mod (by omega), Nat.mod_eq_of_lt (by omega)]
        omega
      rw [e]
      simp [hk2]

/-- **C37.** The rotation puts vertex `i` first (`i < n`). -/
theorem C37_first (v : List (V3 ℝ)) (i : ℕ) (hi : i < v.length) : (v.rotate i).head? = some v[i] := by
  rw [List.head?_eq_getElem?, List.getElem?_rotate (by omega)]
  simp [Nat.mod_eq_of_lt hi]

/-- **C37.** Reindexing twice is reindexing by the sum (mod the number of vertices). -/
theorem C37_compose (v : List (V3 ℝ)) (hne : v ≠ []) (i j : ℕ) (hi : i ≤ v.length) (hj : j ≤ v.length)
    (q : Polyline ℝ) (m : List ℤ) (h : (poly v true).reindexed (i : ℤ) = .ok (q, m)) :
    ∃ r m1 m2, q.reindexed (j : ℤ) = .ok (r, m1) ∧
      (poly v true).reindexed (((i + j) % v.length : ℕ) : ℤ) = .ok (r, m2) := by
  obtain ⟨_, h', _⟩ := C37_reindexed v hne i hi
  rw [h] at h'
  injection h' with h'
  injection h' with h1 h2
  subst h1
  have hpos : 0 < v.length := List.length_pos_iff.mpr hne
  obtain ⟨m1, e1, _⟩ := C37_reindexed (v.rotate i) (by simpa using hne) j (by simpa using hj)
  obtain ⟨m2, e2, _⟩ := C37_reindexed v hne ((i + j) % v.length) (Nat.mod_lt _ hpos).le
  refine ⟨_, m1, m2, e1, ?_⟩
  rw [e2, List.rotate_rotate, List.rotate_mod]

theorem chainSegs_closed_getElem? (v : List (V3 ℝ)) (k : ℕ) (hk : k < v.length) :
    (chainSegs v true)[k]? = some (v[k], v[(k + 1) % v.length]'(Nat.mod_lt _ (by omega))) := by
  have he : (k, (k + 1) % v.length) ∈ chainEdges v.length true := by
    unfold chainEdges
    simp only [if_true, List.mem_map, List.mem_range]
    exact ⟨k, hk, rfl⟩
  obtain ⟨a, b, h1, h2, h3, h4⟩ := circuit_getElem? v true _ he
  have := pairs_getElem? _ _ _ _ h3 h4
  rw [List.getElem?_eq_getElem hk] at h1
  rw [List.getElem?_eq_getElem (Nat.mod_lt _ (by omega))] at h2
  injection h1 with h1
  injection h2 with h2
  rw [h1, h2]
  exact this

/-- **C37.** Edge `k` of the reindexed polyline is edge `mapping[k]` of the original: the mapping
takes new edge numbers to old ones. -/
theorem C37_mapping (v : List (V3 ℝ)) (hne : v ≠ []) (i : ℕ) (hi : i ≤ v.length) (q : Polyline ℝ)
    (m : List ℤ) (h : (poly v true).reindexed (i : ℤ) = .ok (q, m)) :
    ∃ news olds, q.segments = .ok news ∧ (poly v true).segments = .ok olds ∧
      ∀ k, k < v.length → ∃ j : ℕ, m[k]? = some (j : ℤ) ∧ news[k]? = olds[j]? ∧ j < v.length := by
  obtain ⟨m', h', _, hm⟩ := C37_reindexed v hne i hi
  rw [h] at h'
  injection h' with h'
  injection h' with h1 h2
  subst h1; subst h2
  refine ⟨_, _, segments_eq _ _, segments_eq _ _, ?_⟩
  intro k hk
  have hpos : 0 < v.length := by omega
  refine ⟨(i + k) % v.length, hm k hk, ?_, Nat.mod_lt _ hpos⟩
  rw [chainSegs_closed_getElem? v _ (Nat.mod_lt _ hpos),
    chainSegs_closed_getElem? (v.rotate i) k (by simpa using hk)]
  congr 1
  simp only [List.getElem_rotate, List.length_rotate]
  congr 1
  · congr 1
    rw [Nat.add_comm]
  · congr 1
    rw [Nat.mod_add_mod, Nat.mod_add_mod]
    congr 1
    ring

/-- **C37.** Open polylines raise ValueError. -/
theorem C37_open (p : Polyline α) (h : p.closed = false) (i : ℤ) :
    p.reindexed i = .error .ValueError := by
  unfold Polyline.reindexed
  simp [h]

/-- **C37** (docstring). "an array that maps from old edge indices to new" is the other way round:
here old edge 1 is new edge 0, but `mapping[1] = 2`. -/
theorem C37_docstring_violation :
    let v : List (V3 ℝ) := [⟨0, 0, 0⟩, ⟨1, 0, 0⟩, ⟨0, 1, 0⟩]
    ∃ q m news olds, (poly v true).reindexed 1 = .ok (q, m) ∧ q.segments = .ok news ∧
      (poly v true).segments = .ok olds ∧ m[1]? = some 2 ∧ olds[1]? = news[0]? ∧ olds[1]? ≠ news[2]? := by
  obtain ⟨m, h, _, hm⟩ := C37_reindexed [⟨0, 0, 0⟩, ⟨1, 0, 0⟩, ⟨0, 1, 0⟩] (by simp) 1 (by simp)
  refine ⟨_, m, _, _, h, segments_eq _ _, segments_eq _ _, hm 1 (by simp), ?_, ?_⟩
  · simp [chainSegs, circuit, pairs, List.rotate]
  · simp [chainSegs, circuit, pairs, List.rotate]

/-- **C35.** Reindexing does not change the total length. -/
theorem C35_reindexed (v : List (V3 ℝ)) (hne : v ≠ []) (i : ℕ) (hi : i ≤ v.length) (q : Polyline ℝ)
    (m : List ℤ) (h : (poly v true).reindexed (i : ℤ) = .ok (q, m)) :
    q.totalLength = (poly v true).totalLength := by
  obtain ⟨_, h', _⟩ := C37_reindexed v hne i hi
  rw [h] at h'
  injection h' with h'
  injection h' with h1 h2
  subst h1
  rw [(C35_lengths _ _).2, (C35_lengths _ _).2]
  congr 1
  rw [List.rotate_eq_drop_append_take hi]
  have hsplit : v = v.take i ++ v.drop i := (List.take_append_drop i v).symm
  generalize v.take i = xs at *
  generalize v.drop i = ys at *
  subst hsplit
  by_cases hx : xs = []
  · subst hx; simp
  · by_cases hy : ys = []
    · subst hy; simp
    · have hxh := List.head?_eq_some_head hx
      have hxl := List.getLast?_eq_some_getLast hx
      have hyh := List.head?_eq_some_head hy
      have hyl := List.getLast?_eq_some_getLast hy
      rw [circuit_length (ys ++ xs) (ys.head hy) (xs.getLast hx) (by simp [List.head?_append, hyh])
          (by simp [List.getLast?_append, hxl]),
        circuit_length (xs ++ ys) (xs.head hx) (ys.getLast hy) (by simp [List.head?_append, hxh])
          (by simp [List.getLast?_append, hyl]),
        pathLength_join ys xs _ _ hyl hxh, pathLength_join xs ys _ _ hxl hyh]
      ring

/-! ### C36: partition_by_length -/

/-- the least number of equal parts of length at most `l` -/
noncomputable def parts (l : ℝ) (s : V3 ℝ × V3 ℝ) : ℕ := max 1 ⌈dist3 s.1 s.2 / l⌉₊

/-- division point `j` of the segment cut into `parts` -/
noncomputable def cutPoint (l : ℝ) (s : V3 ℝ × V3 ℝ) (j : ℕ) : V3 ℝ :=
  along s.1 ((j : ℝ) / parts l s) (vec3 s.1 s.2)

/-- the division points of a segment, its end excluded -/
noncomputable def subdivide (l : ℝ) (s : V3 ℝ × V3 ℝ) : List (V3 ℝ) :=
  (List.range (parts l s)).map (cutPoint l s)

/-- positions of the segments' starts, when each is cut -/
noncomputable def offsets (l : ℝ) : ℕ → List (V3 ℝ × V3 ℝ) → List ℕ
  | _, [] => []
  | k, s :: ss => k :: offsets l (k + parts l s) ss

theorem parts_pos (l : ℝ) (s : V3 ℝ × V3 ℝ) : 1 ≤ parts l s := le_max_left _ _

/-- **C36.** `parts` is what "the fewest equal parts none longer than `l`" means. -/
theorem C36_fewest (l : ℝ) (hl : 0 < l) (s : V3 ℝ × V3 ℝ) (m : ℕ) (hm : 1 ≤ m) :
    dist3 s.1 s.2 / m ≤ l ↔ parts l s ≤ m := by
  have hm' : (0 : ℝ) < m := by exact_mod_cast hm
  rw [div_le_iff₀ hm', parts, max_le_iff, Nat.ceil_le, div_le_iff₀ hl, mul_comm]
  exact ⟨fun h => ⟨hm, h⟩, fun h => h.2⟩

theorem npCeil_real (x : ℝ) : Polyline.npCeil x = ((⌈x⌉ : ℤ) : ℝ) := by
  unfold Polyline.npCeil
  rw [Num.floor_real]
  simp only [Num.lit_real]
  rw [Int.floor_neg]
  push_cast
  ring

theorem npInt_real (k : ℤ) : Polyline.npInt ((k : ℤ) : ℝ) = .ok k := by
  unfold Polyline.npInt
  rw [Num.floor_real]
  simp

theorem cutPoint_zero (l : ℝ) (s : V3 ℝ × V3 ℝ) : cutPoint l s 0 = s.1 := by
  ext <;> simp [cutPoint, along]

theorem partitionLoop_real (l : ℝ) (hl : 0 < l) (v : List (V3 ℝ)) : ∀ (es : List (ℕ × ℕ))
    (ss : List (V3 ℝ × V3 ℝ)) (ind : List ℕ) (nv : List (V3 ℝ)),
    List.Forall₂ (fun e s => Polyline.segmentOf v e = .ok s) es ss →
    Polyline.partitionLoop v (es.zip ((ss.map fun s => dist3 s.1 s.2).map fun d => Polyline.npCeil (d / l)))
      (ind, nv) = .ok (ind ++ offsets l nv.length ss, nv ++ ss.flatMap (subdivide l)) := by
  intro es
  induction es with
  | nil =>
    intro ss ind nv h
    cases h
    simp [Polyline.partitionLoop, offsets]
  | cons e es ih =>
    intro ss ind nv h
    cases h with
    | cons h1 h2 =>
      rename_i s ss
      simp only [List.map_cons, List.zip_cons_cons, Polyline.partitionLoop, h1, ok_bind]
      have hd : 0 ≤ dist3 s.1 s.2 / l := div_nonneg (len3_nonneg _) hl.le
      have hceil : (⌈dist3 s.1 s.2 / l⌉₊ : ℤ) = ⌈dist3 s.1 s.2 / l⌉ := Int.natCast_ceil_eq_ceil hd
      rw [npCeil_real]
      by_cases hc : ⌈dist3 s.1 s.2 / l⌉ ≤ 1
      · have hp : parts l s = 1 := by
          unfold parts
          apply max_eq_left
          omega
        have hle : Num.le (((⌈dist3 s.1 s.2 / l⌉ : ℤ)) : ℝ) (Num.lit 1) = true := by
          rw [Num.le_real, Num.lit_real]
          push_cast
          exact_mod_cast hc
        rw [if_pos hle, ih ss _ _ h2]
        have hsub : subdivide l s = [s.1] := by
          unfold subdivide
          rw [hp]
          simp [cutPoint_zero]
        simp [offsets, hsub, hp]
      · have hp : (parts l s : ℤ) = ⌈dist3 s.1 s.2 / l⌉ := by
          unfold parts
          rw [max_eq_right (by omega), hceil]
        have hle : ¬ Num.le (((⌈dist3 s.1 s.2 / l⌉ : ℤ)) : ℝ) (Num.lit 1) = true := by
          rw [Num.le_real, Num.lit_real]
          push_cast
          intro h
          exact hc (by exact_mod_cast h)
        obtain ⟨pts, hpts, hlen, hval⟩ := C41_partition_segment3 s.1 s.2 ⌈dist3 s.1 s.2 / l⌉ (by omega) false
        have hsub : pts = subdivide l s := by
          have hk : (⌈dist3 s.1 s.2 / l⌉).toNat = parts l s := by omega
          apply List.ext_getElem
          · rw [hlen, hk]; simp [subdivide]
          · intro i h1 h2
            rw [hval i h1]
            simp only [subdivide, List.getElem_map, List.getElem_range, cutPoint]
            have : ((parts l s : ℕ) : ℝ) = ((⌈dist3 s.1 s.2 / l⌉ : ℤ) : ℝ) := by exact_mod_cast hp
            rw [this]
            simp
        rw [if_neg hle, npInt_real, ok_bind, hpts, ok_bind, ih ss _ _ h2, hsub]
        have hsl : (subdivide l s).length = parts l s := by simp [subdivide]
        simp [offsets, hsl]

theorem segments_forall₂ (v : List (V3 ℝ)) (closed : Bool) :
    List.Forall₂ (fun e s => Polyline.segmentOf v e = .ok s) (chainEdges v.length closed) (chainSegs v closed) := by
  rw [List.forall₂_iff_get]
  refine ⟨by rw [chainEdges_length, chainSegs_length], ?_⟩
  intro i h1 h2
  obtain ⟨a, b, e1, e2, e3, e4⟩ := circuit_getElem? v closed _ (List.getElem_mem h1)
  have hs := pairs_getElem? _ _ _ _ e3 e4
  rw [chainEdges_getElem i h1] at hs
  have hs' : (chainSegs v closed)[i]? = some (a, b) := hs
  rw [List.getElem?_eq_getElem h2] at hs'
  injection hs' with hs'
  simp only [List.get_eq_getElem]
  rw [hs']
  unfold Polyline.segmentOf
  rw [pyIndex_of_getElem? e1, pyIndex_of_getElem? e2]
  rfl

/-- the vertices after the partition -/
noncomputable def refined (l : ℝ) (v : List (V3 ℝ)) (closed : Bool) : List (V3 ℝ) :=
  (chainSegs v closed).flatMap (subdivide l) ++ if closed then [] else v.getLast?.toList

/-- positions of the original vertices after the partition -/
noncomputable def refinedIndices (l : ℝ) (v : List (V3 ℝ)) (closed : Bool) : List ℕ :=
  offsets l 0 (chainSegs v closed) ++
    if closed then [] else [((chainSegs v closed).flatMap (subdivide l)).length]

theorem refined_ne_nil (l : ℝ) (v : List (V3 ℝ)) (closed : Bool) (hv : v ≠ []) : refined l v closed ≠ [] := by
  unfold refined
  cases closed with
  | false => simp [List.getLast?_eq_some_getLast hv]
  | true =>
    cases v with
    | nil => exact absurd rfl hv
    | cons a r =>
      have : ∃ s ss, chainSegs (a :: r) true = s :: ss := by
        have := chainSegs_length (a :: r) true
        cases h : chainSegs (a :: r) true with
        | nil => rw [h] at this; simp at this
        | cons s ss => exact ⟨s, ss, rfl⟩
      obtain ⟨s, ss, h⟩ := this
      rw [h]
      have hp := parts_pos l s
      simp [subdivide]
      intro h0
      omega

/-- **C36.** The call succeeds for every nonempty polyline and positive length; the object keeps its
closedness, its vertices are the original segments cut into the fewest equal parts, and the returned
indices are the positions of the original vertices. -/
theorem C36_partition (v : List (V3 ℝ)) (closed : Bool) (hv : v ≠ []) (l : ℝ) (hl : 0 < l) :
    (poly v closed).partitionByLength l =
      (poly (refined l v closed) closed, .ok (refinedIndices l v closed)) := by
  have hloop := partitionLoop_real l hl v _ _ [] [] (segments_forall₂ v closed)
  have hset : (poly v closed).setV (rowsOf (refined l v closed)) = (poly (refined l v closed) closed, .ok ()) :=
    setV_ok (poly v closed) _ _ (asPoints_real _) (fun _ => refined_ne_nil l v closed hv)
  have hcomp : (poly v closed).partitionVerts l = .ok (refinedIndices l v closed, refined l v closed) := by
    unfold Polyline.partitionVerts
    rw [segmentLengths_real, ok_bind]
    have hv' : (poly v closed).v.getD [] = v := rfl
    have he' : (poly v closed).e.getD [] = chainEdges v.length closed := rfl
    rw [hv', he']
    simp only
    rw [hloop, ok_bind]
    cases closed with
    | true => simp [poly, refined, refinedIndices]
    | false =>
      have hlast : pyIndex v (-1) = .ok (v.getLast hv) := by
        conv_lhs => rw [← List.dropLast_append_getLast hv]
        exact pyIndex_concat _ _
      simp [poly, refined, refinedIndices, Polyline.vArr, hlast, List.getLast?_eq_some_getLast hv]
  unfold Polyline.partitionByLength
  rw [hcomp]
  simp only
  rw [hset]

/-- consecutive division points -/
noncomputable def subsegs (l : ℝ) (s : V3 ℝ × V3 ℝ) : List (V3 ℝ × V3 ℝ) :=
  (List.range (parts l s)).map fun (j : ℕ) => (cutPoint l s j, cutPoint l s (j + 1))

theorem pairs_range_map {P : Type} (f : ℕ → P) : ∀ (m : ℕ) (rest : List P),
    pairs ((List.range m).map f ++ f m :: rest) =
      ((List.range m).map fun (j : ℕ) => (f j, f (j + 1))) ++ pairs (f m :: rest)
  | 0, rest => by simp
  | m + 1, rest => by
    have := pairs_range_map f m (f (m + 1) :: rest)
    rw [List.range_succ, List.map_append, List.map_append, List.append_assoc, List.append_assoc]
    simp only [List.map_cons, List.map_nil, List.singleton_append]
    rw [this]
    simp [pairs]

theorem cutPoint_last (l : ℝ) (s : V3 ℝ × V3 ℝ) : cutPoint l s (parts l s) = s.2 := by
  have h : ((parts l s : ℕ) : ℝ) ≠ 0 := by
    have := parts_pos l s
    exact_mod_cast (by omega : parts l s ≠ 0)
  unfold cutPoint
  rw [div_self h]
  ext <;> simp [along, vec3]

theorem fill_head (l : ℝ) : ∀ (w : List (V3 ℝ)) (a b : V3 ℝ), w.head? = some a → w.getLast? = some b →
    ∃ t, (pairs w).flatMap (subdivide l) ++ [b] = a :: t
  | [], _, _, h, _ => by simp at h
  | [x], a, b, h, h' => by
    simp at h h'
    subst h; subst h'
    exact ⟨[], by simp [pairs]⟩
  | x :: y :: r, a, b, h, h' => by
    simp at h
    subst h
    have hp := parts_pos l (x, y)
    obtain ⟨k, hk⟩ : ∃ k, parts l (x, y) = k + 1 := ⟨parts l (x, y) - 1, by omega⟩
    refine ⟨(List.range k).map (fun (j : ℕ) => cutPoint l (x, y) (j + 1)) ++
      (pairs (y :: r)).flatMap (subdivide l) ++ [b], ?_⟩
    simp only [pairs, List.flatMap_cons]
    have : subdivide l (x, y) = x :: (List.range k).map (fun (j : ℕ) => cutPoint l (x, y) (j + 1)) := by
      unfold subdivide
      rw [hk, List.range_succ_eq_map]
      simp [cutPoint_zero, Function.comp_def]
    rw [this]
    simp

theorem fill_pairs (l : ℝ) : ∀ (w : List (V3 ℝ)) (b : V3 ℝ), w.getLast? = some b →
    pairs ((pairs w).flatMap (subdivide l) ++ [b]) = (pairs w).flatMap (subsegs l)
  | [], _, h => by simp at h
  | [x], b, h => by simp [pairs]
  | x :: y :: r, b, h => by
    have hb : (y :: r).getLast? = some b := by simpa using h
    have ih := fill_pairs l (y :: r) b hb
    obtain ⟨t, ht⟩ := fill_head l (y :: r) y b rfl hb
    simp only [pairs, List.flatMap_cons, List.append_assoc]
    rw [ht] at ih ⊢
    have hl := cutPoint_last l (x, y)
    simp only at hl
    have := pairs_range_map (cutPoint l (x, y)) (parts l (x, y)) t
    rw [hl] at this
    unfold subdivide
    rw [this, ih]
    rfl

/-- **C36.** The segments afterwards, in order: every original segment replaced by its equal parts. -/
theorem C36_segments (v : List (V3 ℝ)) (closed : Bool) (hv : v ≠ []) (l : ℝ) :
    chainSegs (refined l v closed) closed = (chainSegs v closed).flatMap (subsegs l) := by
  have hb := List.getLast?_eq_some_getLast hv
  cases closed with
  | false =>
    have e1 : chainSegs v false = pairs v := by simp [chainSegs, circuit]
    have e2 : refined l v false = (pairs v).flatMap (subdivide l) ++ [v.getLast hv] := by
      simp [refined, e1, hb]
    rw [e1, ← fill_pairs l v _ hb, ← e2]
    simp [chainSegs, circuit]
  | true =>
    have ha := List.head?_eq_some_head hv
    have e1 : chainSegs v true = pairs (v ++ [v.head hv]) := by simp [chainSegs, circuit, ha]
    have e2 : refined l v true = (pairs (v ++ [v.head hv])).flatMap (subdivide l) := by
      simp [refined, e1]
    have hlast : (v ++ [v.head hv]).getLast? = some (v.head hv) := by simp
    have hhead : (v ++ [v.head hv]).head? = some (v.head hv) := by simp [List.head?_append, ha]
    rw [e1, ← fill_pairs l _ _ hlast, ← e2]
    obtain ⟨t, ht⟩ := fill_head l _ _ _ hhead hlast
    rw [← e2] at ht
    have hne := refined_ne_nil l v true hv
    have : (refined l v true).head? = some (v.head hv) := by
      cases h : refined l v true with
      | nil => exact absurd h hne
      | cons c r =>
        rw [h] at ht
        simp at ht
        simp [ht.1]
    simp [chainSegs, circuit, this]

theorem cutPoint_dist (l : ℝ) (s : V3 ℝ × V3 ℝ) (j : ℕ) :
    dist3 (cutPoint l s j) (cutPoint l s (j + 1)) = dist3 s.1 s.2 / parts l s := by
  have h : (0 : ℝ) < (parts l s : ℕ) := by exact_mod_cast parts_pos l s
  have e : vec3 (cutPoint l s j) (cutPoint l s (j + 1)) = scale3 (1 / (parts l s : ℕ)) (vec3 s.1 s.2) := by
    ext <;> simp [cutPoint, along, vec3, scale3] <;> ring
  unfold dist3
  rw [e, len3_scale, abs_of_pos (by positivity)]
  ring

/-- **C36.** After the partition no segment is longer than the limit, and the parts of one original
segment are equally long. -/
theorem C36_no_longer (v : List (V3 ℝ)) (closed : Bool) (hv : v ≠ []) (l : ℝ) (hl : 0 < l) (s : V3 ℝ × V3 ℝ)
    (hs : s ∈ chainSegs (refined l v closed) closed) :
    ∃ o ∈ chainSegs v closed, s ∈ subsegs l o ∧ dist3 s.1 s.2 = dist3 o.1 o.2 / parts l o ∧ dist3 s.1 s.2 ≤ l := by
  rw [C36_segments v closed hv l, List.mem_flatMap] at hs
  obtain ⟨o, ho, hs⟩ := hs
  refine ⟨o, ho, hs, ?_⟩
  unfold subsegs at hs
  rw [List.mem_map] at hs
  obtain ⟨j, _, rfl⟩ := hs
  simp only
  rw [cutPoint_dist]
  exact ⟨rfl, (C36_fewest l hl o _ (parts_pos l o)).mpr le_rfl⟩

theorem subsegs_sum (l : ℝ) (s : V3 ℝ × V3 ℝ) :
    ((subsegs l s).map fun t => dist3 t.1 t.2).sum = dist3 s.1 s.2 := by
  have h : ((parts l s : ℕ) : ℝ) ≠ 0 := by
    have := parts_pos l s
    exact_mod_cast (by omega : parts l s ≠ 0)
  have : ((subsegs l s).map fun t => dist3 t.1 t.2) =
      List.replicate (parts l s) (dist3 s.1 s.2 / parts l s) := by
    unfold subsegs
    rw [List.map_map, List.eq_replicate_iff]
    refine ⟨by simp, ?_⟩
    intro x hx
    rw [List.mem_map] at hx
    obtain ⟨j, _, rfl⟩ := hx
    exact cutPoint_dist l s j
  rw [this, List.sum_replicate, nsmul_eq_mul]
  field_simp

/-- **C35, C36.** The partition does not change the total length. -/
theorem C36_total (v : List (V3 ℝ)) (closed : Bool) (hv : v ≠ []) (l : ℝ) (hl : 0 < l) :
    ((poly v closed).partitionByLength l).1.totalLength = (poly v closed).totalLength := by
  rw [C36_partition v closed hv l hl]
  simp only
  rw [(C35_lengths _ _).2, (C35_lengths _ _).2]
  congr 1
  show ((chainSegs (refined l v closed) closed).map fun s => dist3 s.1 s.2).sum =
    ((chainSegs v closed).map fun s => dist3 s.1 s.2).sum
  rw [C36_segments v closed hv l]
  generalize chainSegs v closed = ss
  induction ss with
  | nil => simp
  | cons s ss ih =>
    simp only [List.flatMap_cons, List.map_append, List.sum_append, List.map_cons, List.sum_cons, ih, subsegs_sum]

theorem offsets_length (l : ℝ) : ∀ (ss : List (V3 ℝ × V3 ℝ)) (k : ℕ), (offsets l k ss).length = ss.length
  | [], _ => rfl
  | s :: ss, k => by simp [offsets, offsets_length l ss]

theorem offsets_getElem? (l : ℝ) : ∀ (ss : List (V3 ℝ × V3 ℝ)) (pre : List (V3 ℝ)) (tail : List (V3 ℝ)) (i : ℕ)
    (s : V3 ℝ × V3 ℝ), ss[i]? = some s →
    ∃ j, (offsets l pre.length ss)[i]? = some j ∧ (pre ++ ss.flatMap (subdivide l) ++ tail)[j]? = some s.1
  | [], _, _, _, _, h => by simp at h
  | t :: ss, pre, tail, 0, s, h => by
    simp at h
    subst h
    refine ⟨pre.length, by simp [offsets], ?_⟩
    rw [List.append_assoc, List.getElem?_append_right le_rfl]
    have hp := parts_pos l t
    have : (subdivide l t)[0]? = some t.1 := by
      unfold subdivide
      rw [List.getElem?_map, List.getElem?_range (by omega)]
      simp [cutPoint_zero]
    simp only [Nat.sub_self, List.flatMap_cons, List.append_assoc]
    rw [List.getElem?_append_left (by simp [subdivide]; omega)]
    exact this
  | t :: ss, pre, tail, i + 1, s, h => by
    have hlen : (subdivide l t).length = parts l t := by simp [subdivide]
    obtain ⟨j, h1, h2⟩ := offsets_getElem? l ss (pre ++ subdivide l t) tail i s (by simpa using h)
    refine ⟨j, ?_, ?_⟩
    · simp only [offsets, List.getElem?_cons_succ]
      rw [List.length_append, hlen] at h1
      exact h1
    · simpa using h2

theorem offsets_lower (l : ℝ) : ∀ (ss : List (V3 ℝ × V3 ℝ)) (k : ℕ),
    (∀ j ∈ offsets l k ss, k ≤ j ∧ j < k + (ss.flatMap (subdivide l)).length) ∧ (offsets l k ss).Pairwise (· < ·)
  | [], _ => by simp [offsets]
  | s :: ss, k => by
    have hp := parts_pos l s
    have hlen : (subdivide l s).length = parts l s := by simp [subdivide]
    obtain ⟨h1, h2⟩ := offsets_lower l ss (k + parts l s)
    refine ⟨?_, ?_⟩
    · intro j hj
      simp only [List.flatMap_cons, List.length_append, hlen]
      simp only [offsets, List.mem_cons] at hj
      rcases hj with rfl | hj
      · omega
      · have := h1 j hj; omega
    · simp only [offsets, List.pairwise_cons]
      refine ⟨?_, h2⟩
      intro j hj
      have := h1 j hj
      omega

theorem pairs_fst {P : Type} : ∀ (w : List P), (pairs w).map Prod.fst = w.dropLast
  | [] => rfl
  | [_] => rfl
  | a :: b :: r => by
    have := pairs_fst (b :: r)
    simp only [pairs, List.map_cons, List.dropLast_cons₂]
    rw [this]

/-- **C36.** One index per original vertex, increasing, each pointing at that vertex. -/
theorem C36_indices (v : List (V3 ℝ)) (closed : Bool) (hv : v ≠ []) (l : ℝ) :
    (refinedIndices l v closed).length = v.length ∧
    (refinedIndices l v closed).Pairwise (· < ·) ∧
    ∀ k, k < v.length → ∃ j, (refinedIndices l v closed)[k]? = some j ∧ (refined l v closed)[j]? = v[k]? := by
  have hpos : 0 < v.length := List.length_pos_iff.mpr hv
  have hlow := offsets_lower l (chainSegs v closed) 0
  have hstart : ∀ k, k < (chainSegs v closed).length → ((chainSegs v closed)[k]?.map Prod.fst) = v[k]? := by
    intro k hk
    rw [← List.getElem?_map]
    unfold chainSegs
    rw [pairs_fst]
    rw [chainSegs_length] at hk
    unfold circuit
    cases closed with
    | false =>
      simp at hk ⊢
      rw [List.getElem?_dropLast, if_pos hk]
    | true =>
      simp at hk
      simp only [if_true, List.head?_eq_some_head hv, Option.toList_some, List.dropLast_concat]
  have hmain : ∀ k, k < (chainSegs v closed).length → ∀ tail, ∃ j, (offsets l 0 (chainSegs v closed))[k]? = some j ∧
      ((chainSegs v closed).flatMap (subdivide l) ++ tail)[j]? = v[k]? := by
    intro k hk tail
    obtain ⟨j, h1, h2⟩ := offsets_getElem? l (chainSegs v closed) [] tail k _ (List.getElem?_eq_getElem hk)
    refine ⟨j, h1, ?_⟩
    rw [← hstart k hk, List.getElem?_eq_getElem hk]
    simpa using h2
  have hlen := chainSegs_length v closed
  unfold refinedIndices refined
  cases closed with
  | true =>
    simp only [if_true] at hlen ⊢
    rw [List.append_nil]
    refine ⟨by rw [offsets_length, hlen], hlow.2, ?_⟩
    intro k hk
    exact hmain k (by omega) []
  | false =>
    simp only [Bool.false_eq_true, if_false] at hlen ⊢
    refine ⟨by simp [offsets_length, hlen]; omega, ?_, ?_⟩
    · rw [List.pairwise_append]
      refine ⟨hlow.2, by simp, ?_⟩
      intro a ha b hb
      simp at hb
      subst hb
      have := (hlow.1 a ha).2
      simpa using this
    · intro k hk
      by_cases h : k < (chainSegs v false).length
      · obtain ⟨j, h1, h2⟩ := hmain k h v.getLast?.toList
        refine ⟨j, ?_, h2⟩
        rw [List.getElem?_append_left (by rw [offsets_length]; exact h)]
        exact h1
      · have hk' : k = v.length - 1 := by omega
        refine ⟨((chainSegs v false).flatMap (subdivide l)).length, ?_, ?_⟩
        · rw [List.getElem?_append_right (by rw [offsets_length]; omega), offsets_length, hlen, hk']
          simp
        · rw [List.getElem?_append_right le_rfl, hk', ← List.getLast?_eq_getElem?]
          simp [List.getLast?_eq_some_getLast hv]

/-- **C36.** A polyline whose segments are all within the limit is left as it is. -/
theorem C36_nothing_to_do (v : List (V3 ℝ)) (closed : Bool) (hv : v ≠ []) (l : ℝ) (hl : 0 < l)
    (h : ∀ s ∈ chainSegs v closed, dist3 s.1 s.2 ≤ l) : refined l v closed = v := by
  have e : (chainSegs v closed).flatMap (subdivide l) = (chainSegs v closed).map Prod.fst := by
    rw [← List.flatMap_singleton' ((chainSegs v closed).map Prod.fst), List.flatMap_map]
    apply List.flatMap_congr
    intro s hs
    have hp : parts l s = 1 := by
      have := (C36_fewest l hl s 1 le_rfl).mp (by simpa using h s hs)
      have := parts_pos l s
      omega
    unfold subdivide
    rw [hp]
    simp [cutPoint_zero]
  unfold refined
  rw [e]
  unfold chainSegs
  rw [pairs_fst]
  cases closed with
  | false =>
    simp [circuit, List.getLast?_eq_some_getLast hv, List.dropLast_append_getLast hv]
  | true =>
    simp [circuit, List.head?_eq_some_head hv]

/-- **C36.** Partitioning again with the same limit changes nothing. -/
theorem C36_idempotent (v : List (V3 ℝ)) (closed : Bool) (hv : v ≠ []) (l : ℝ) (hl : 0 < l) (q : Polyline ℝ)
    (idx : List ℕ) (h : (poly v closed).partitionByLength l = (q, .ok idx)) :
    ∃ idx', q.partitionByLength l = (q, .ok idx') := by
  rw [C36_partition v closed hv l hl] at h
  injection h with h1 h2
  subst h1
  have hne := refined_ne_nil l v closed hv
  rw [C36_partition _ closed hne l hl]
  rw [C36_nothing_to_do (refined l v closed) closed hne l hl
    (fun s hs => (C36_no_longer v closed hv l hl s hs).choose_spec.2.2.2)]
  exact ⟨_, rfl⟩

/-- a segment of length 5 with limit 2 is cut into three -/
example : parts 2 ((⟨0, 0, 0⟩, ⟨3, 4, 0⟩) : V3 ℝ × V3 ℝ) = 3 := by
  have hd : dist3 (⟨0, 0, 0⟩ : V3 ℝ) ⟨3, 4, 0⟩ = 5 := by
    unfold dist3 len3 vec3
    rw [show (5 : ℝ) = Real.sqrt (5 ^ 2) from (Real.sqrt_sq (by norm_num)).symm]
    congr 1
    norm_num
  unfold parts
  simp only [hd]
  have : ⌈(5 : ℝ) / 2⌉₊ = 3 := by
    rw [Nat.ceil_eq_iff (by norm_num)]
    norm_num
  rw [this]
  rfl

end Blmath.Props
