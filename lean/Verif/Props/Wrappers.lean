import Verif.Model.Wrappers
import Verif.Props.Polyline
import Verif.Props.RodriguesLogJac

/-!
Property C114: what the library hands to other packages.
-/

namespace Blmath.Props
open Blmath.Geometry Blmath.Spec Blmath.Proofs

namespace WR

/-- the segments drawn by a set of lines: the ends of each edge; `none` if an edge names no vertex -/
def drawn {α κ : Type} (l : Lines α κ) : Option (List (V3 α × V3 α)) := do
  let v ← l.v
  let e ← l.e
  e.mapM fun q => do
    let a ← v[q.1]?
    let b ← v[q.2]?
    pure (a, b)

theorem mapM_getElem {P : Type} (f : ℕ → Option P) (g : ℕ → P) : ∀ l : List ℕ, (∀ i ∈ l, f i = some (g i)) →
    l.mapM f = some (l.map g)
  | [], _ => rfl
  | i :: l, h => by
    rw [List.mapM_cons, h i (by simp), mapM_getElem f g l (fun j hj => h j (by simp [hj]))]
    rfl

theorem pairs_getElem {P : Type} : ∀ (w : List P) (i : ℕ) (h : i + 1 < w.length),
    (pairs w)[i]? = some (w[i]'(by omega), w[i + 1])
  | [], i, h => by simp at h
  | [a], i, h => by simp at h
  | a :: b :: w, 0, _ => rfl
  | a :: b :: w, i + 1, h => by
    have := pairs_getElem (b :: w) i (by simpa using h)
    simpa [pairs] using this

theorem pairs_length {P : Type} : ∀ w : List P, (pairs w).length = w.length - 1
  | [] => rfl
  | [_] => rfl
  | _ :: b :: w => by simp [pairs, pairs_length (b :: w)]

theorem edges_drawn {P : Type} (v : List P) (closed : Bool) (h : closed = true → v ≠ []) :
    ((chainEdges v.length closed).mapM fun q => do
      let a ← v[q.1]?
      let b ← v[q.2]?
      pure (a, b)) = some (chainSegs v closed) := by
  by_cases hv : v = []
  · subst hv
    have : closed = false := by
      cases closed
      · rfl
      · exact absurd rfl (h rfl)
    subst this
    rfl
  have hlen : 0 < v.length := List.length_pos_iff.mpr hv
  obtain ⟨x, hx⟩ : ∃ x, v.head? = some x := by
    cases v with
    | nil => exact absurd rfl hv
    | cons a v => exact ⟨a, rfl⟩
  have hx0 : v[0]? = some x := by rw [← List.head?_eq_getElem?]; exact hx
  have hcl : (circuit v closed).length = v.length + if closed then 1 else 0 := by
    cases closed <;> simp [circuit, hx]
  have hseg : (chainSegs v closed).length = if closed then v.length else v.length - 1 := by
    rw [chainSegs, pairs_length, hcl]; cases closed <;> simp
  let d : P × P := (x, x)
  have hn : chainSegs v closed = (List.range (chainSegs v closed).length).map fun i => (chainSegs v closed).getD i d := by
    refine List.ext_getElem (by simp) ?_
    intro i h1 h2
    simp [List.getElem?_eq_getElem h1]
  rw [hn, hseg]
  cases closed with
  | false =>
    simp only [chainEdges, Bool.false_eq_true, if_false, List.mapM_map]
    refine mapM_getElem _ _ _ ?_
    intro i hi
    have hi' : i < v.length - 1 := by simpa using hi
    have hp := pairs_getElem v i (by omega)
    simp only [Function.comp, chainSegs, circuit, Bool.false_eq_true, if_false, List.append_nil, List.getD, hp]
    rw [List.getElem?_eq_getElem (by omega : i < v.length), List.getElem?_eq_getElem (by omega : i + 1 < v.length)]
    rfl
  | true =>
    simp only [chainEdges, if_true, List.mapM_map]
    refine mapM_getElem _ _ _ ?_
    intro i hi
    have hi' : i < v.length := by simpa using hi
    have hc : circuit v true = v ++ [x] := by simp [circuit, hx]
    have hp := pairs_getElem (v ++ [x]) i (by simp; omega)
    simp only [Function.comp, chainSegs, hc, List.getD, hp]
    rw [List.getElem?_eq_getElem hi']
    have : v[(i + 1) % v.length]? = some ((v ++ [x])[i + 1]'(by simp; omega)) := by
      by_cases hl : i + 1 < v.length
      · rw [Nat.mod_eq_of_lt hl, List.getElem_append_left hl, List.getElem?_eq_getElem hl]
      · have e : i + 1 = v.length := by omega
        have hm : (i + 1) % v.length = 0 := by rw [e, Nat.mod_self]
        rw [hm, hx0, List.getElem_append_right (by omega)]
        simp
    rw [this]
    simp only [Option.bind_eq_bind, Option.bind_some, Option.pure_def, Option.getD_some]
    rw [List.getElem_append_left hi']

end WR

open WR

/-- **C114.** `as_lines` of a polyline in any state reached without a failure draws the segments of the chain, in order; the
colours are handed on. -/
theorem C114_lines {α κ : Type} [Num α] (p : Polyline α) (v : List (V3 α)) (vc : Option κ) (h : EdgesMatch p)
    (hv : p.v = some v) (hc : p.closed = true → v ≠ []) :
    drawn (p.asLines vc) = some (chainSegs v p.closed) ∧ (p.asLines vc).v = some v ∧ (p.asLines vc).vc = vc ∧
    ∀ a b, (a, b) ∈ (p.asLines vc).e.getD [] → a < v.length ∧ b < v.length := by
  have he : p.e = some (chainEdges v.length p.closed) := by rw [h, hv]; rfl
  refine ⟨?_, hv, rfl, ?_⟩
  · simp only [drawn, Polyline.asLines, hv, he]
    exact edges_drawn v p.closed hc
  · intro a b hab
    simp only [Polyline.asLines, he, Option.getD_some, chainEdges] at hab
    split at hab
    · obtain ⟨i, hi, e⟩ := List.mem_map.mp hab
      have hi := List.mem_range.mp hi
      cases e
      exact ⟨hi, Nat.mod_lt _ (by omega)⟩
    · obtain ⟨i, hi, e⟩ := List.mem_map.mp hab
      have hi := List.mem_range.mp hi
      cases e
      omega

/-- **C114.** They are the segments the polyline itself reports. -/
theorem C114_same {κ : Type} (v : List (V3 ℝ)) (closed : Bool) (h : closed = true → v ≠ []) (vc : Option κ) :
    (poly v closed).segments = .ok ((drawn ((poly v closed).asLines vc)).getD []) := by
  rw [(C35_vectors v closed).1, (C114_lines (poly v closed) v vc (by simp [EdgesMatch, poly]) rfl h).1]
  rfl

/-- **C114.** A polyline without vertices becomes lines without vertices and without edges. -/
theorem C114_no_vertices {α κ : Type} [Num α] (p : Polyline α) (h : EdgesMatch p) (hv : p.v = none) (vc : Option κ) :
    (p.asLines vc).v = none ∧ (p.asLines vc).e = none ∧ (p.asLines vc).vc = vc :=
  ⟨hv, by rw [EdgesMatch, hv] at h; exact h, rfl⟩

/-- **C114.** After the failed assignment of C34_hollow the edges of the lines name vertices that do not exist. -/
theorem C114_hollow (κ : Type) :
    let p : Polyline ℝ := ((poly [⟨1, 2, 3⟩, ⟨4, 5, 6⟩] true).setV (.mat 3 [])).1
    (p.asLines (none : Option κ)).v = some [] ∧ (p.asLines (none : Option κ)).e = some [(0, 1), (1, 0)] ∧
    drawn (p.asLines (none : Option κ)) = none := ⟨rfl, rfl, rfl⟩

/-! ### class `Rodrigues` -/

/-- what is expected of `cv2.Rodrigues` of the vector `r`: the rotation by `r` and its partial derivatives, one row for each
coordinate of `r` -/
def Cv2Right (cv2 : Cv2Rodrigues ℝ) (r : Fin 3 → ℝ) : Prop :=
  ∃ J : Mat 3 9 ℝ, cv2 (.vec (vec r)) = .ok (.mat (rotMap r) J) ∧ HasJacobian39 rotMap J r

/-- **C114.** If `cv2.Rodrigues` does what it should, the value of a `Rodrigues` object is the rotation by `rt`, and its
derivative with respect to `rt`, a matrix of nine rows and three columns, is the derivative of the nine entries of the
rotation matrix (in rows, as chumpy flattens them). -/
theorem C114_rodrigues (cv2 : Cv2Rodrigues ℝ) (val : ℕ → RotArg ℝ) (n : RodriguesNode) (r : Fin 3 → ℝ)
    (hr : val n.rt = .vec (vec r)) (h : Cv2Right cv2 r) :
    n.computeR cv2 val = .ok (.mat (rotMap r)) ∧
    ∃ D : Mat 9 3 ℝ, n.computeDrWrt cv2 val n.rt = .ok (some (.ofMat D)) ∧
      HasFDerivAt (fun x => flatten9 (rotMap x)) (LinearMap.toContinuousLinearMap (Matrix.mulVecLin D)) r := by
  obtain ⟨J, h1, h2⟩ := h
  refine ⟨by simp [RodriguesNode.computeR, hr, h1, pure_eq_ok, ok_bind], J.transpose, ?_, ?_⟩
  · simp only [RodriguesNode.computeDrWrt, if_true, hr, h1, ok_bind, pure_eq_ok]
    rfl
  · rw [hasFDerivAt_pi']
    intro p
    have hp := h2 ⟨p / 3, by omega⟩ ⟨p % 3, by omega⟩
    have hi : (⟨(p : ℕ) / 3 * 3 + (p : ℕ) % 3, by omega⟩ : Fin 9) = p := Fin.ext (Nat.div_add_mod' _ _)
    refine HasFDerivAt.congr_fderiv hp ?_
    ext x
    simp only [hi]
    simp [Matrix.vecMul, dotProduct, Fin.sum_univ_three, mul_comm]

/-- **C114.** With respect to any other object there is no derivative, and `cv2` is not asked. -/
theorem C114_other_term {α : Type} (cv2 : Cv2Rodrigues α) (val : ℕ → RotArg α) (n : RodriguesNode) (w : ℕ) (h : w ≠ n.rt) :
    n.computeDrWrt cv2 val w = .ok none := by
  simp [RodriguesNode.computeDrWrt, h, pure_eq_ok]

/-- **C114.** An exception of `cv2.Rodrigues` is passed on by both methods. -/
theorem C114_failure {α : Type} (cv2 : Cv2Rodrigues α) (val : ℕ → RotArg α) (n : RodriguesNode) (e : PyErr)
    (h : cv2 (val n.rt) = .error e) :
    n.computeR cv2 val = .error e ∧ n.computeDrWrt cv2 val n.rt = .error e := by
  simp only [RodriguesNode.computeR, RodriguesNode.computeDrWrt, h, if_true]
  exact ⟨rfl, rfl⟩

/-- **C114.** The function `rodrigues` of the same file could take the place of `cv2.Rodrigues`: it meets the expectation at 0
and from `eps` on. -/
theorem C114_own (svd : Svd3 ℝ) (r : Fin 3 → ℝ) (h : eps ≤ len3 (vec r) ∨ r = 0) : Cv2Right (rodriguesJac svd) r := by
  refine ⟨rodriguesExpJac (vec r), ?_, ?_⟩
  · rcases h with h | rfl
    · simp [rodriguesJac, C74_exp r h, pure_eq_ok]
    · simp only [rodriguesJac, pure_eq_ok, C74_zero]
  · rcases h with h | rfl
    · exact C75_jacobian r h
    · exact C75_zero

/-- **C114.** In the other direction (`rt` a rotation matrix) the derivative has three rows and nine columns and is that of
the rotation vector along any curve of rotations, away from half turns and from the identity. -/
theorem C114_log (svd : Svd3 ℝ) (R : ℝ → Mat 3 3 ℝ) (hR : ∀ t, IsRotation (R t))
    (hsvd : ∀ t, ∃ u s v, svd (R t) = .ok (u, s, v) ∧ SvdSpec (R t) u s v) (D : Mat 3 3 ℝ) (t0 : ℝ)
    (hD : ∀ i j, HasDerivAt (fun t => R t i j) (D i j) t0) (hs : 1 / 100000 < len3 (sinAxis (R t0))) (n : RodriguesNode) :
    ∃ (L : ℝ → V3 ℝ) (J : Mat 3 9 ℝ), (∀ t, n.computeR (rodriguesJac svd) (fun _ => .mat (R t)) = .ok (.vec (L t))) ∧
      n.computeDrWrt (rodriguesJac svd) (fun _ => .mat (R t0)) n.rt = .ok (some (.ofVec J)) ∧
      ∀ k, HasDerivAt (fun t => comp3 (L t) k) (Matrix.mulVec J (flatten9 D) k) t0 := by
  obtain ⟨L, J, h1, h2, h3⟩ := C76_jacobian svd R hR hsvd D t0 hD hs
  refine ⟨L, J.transpose, ?_, ?_, ?_⟩
  · intro t
    have h := (C76_results svd).2.2.1 (R t)
    rw [h1 t] at h
    simp only [RodriguesNode.computeR]
    cases hj : rodriguesJac svd (.mat (R t)) with
    | error e => rw [hj] at h; simp [Except.map] at h
    | ok x =>
      rw [hj] at h
      cases x with
      | mat m j => simp [Except.map] at h
      | vec w j =>
        simp only [Except.map, Except.ok.injEq, RotArg.vec.injEq] at h
        rw [h]; rfl
  · simp only [RodriguesNode.computeDrWrt, if_true, h2, ok_bind, pure_eq_ok]
    rfl
  · intro k
    exact h3 k

/-! ### `apply_correspondence` -/

/-- what a returned array or expression is worth when the chumpy objects have the values `val` -/
def worth {A C : Type} (fit : A → A → C) (move : C → A → A) (val : ℕ → A) : Mapped A → A
  | .arr a => a
  | .ch e => e.r fit move val

/-- **C114.** At every later time the result of `apply_correspondence` is worth what the correspondence of the present values
of `src` and `dst` makes of the present value of `vertices`. -/
theorem C114_correspondence {A C : Type} (fit : A → A → C) (move : C → A → A) (val val' : ℕ → A) (src dst v : ChArg A) :
    worth fit move val' (applyCorrespondence fit move val src dst v) =
      move (fit (src.r val') (dst.r val')) (v.r val') := by
  cases src <;> cases dst <;> cases v <;> rfl

/-- **C114.** It is an array if and only if all three arguments are arrays. -/
theorem C114_array {A C : Type} (fit : A → A → C) (move : C → A → A) (val : ℕ → A) (src dst v : ChArg A) :
    (∃ a, applyCorrespondence fit move val src dst v = .arr a) ↔ (∃ a, src = .arr a) ∧ (∃ a, dst = .arr a) ∧ ∃ a, v = .arr a := by
  cases src <;> cases dst <;> cases v <;> simp [applyCorrespondence, ChArg.isCh]

/-! ### Non-vacuity -/

/-- a closed triangle as lines; a quarter turn about x; a correspondence by translation, whose vertices move afterwards -/
theorem C114_witness :
    drawn ((poly [⟨0, 0, 0⟩, ⟨1, 0, 0⟩, ⟨0, 1, 0⟩] true : Polyline ℝ).asLines (some "red")) =
      some [(⟨0, 0, 0⟩, ⟨1, 0, 0⟩), (⟨1, 0, 0⟩, ⟨0, 1, 0⟩), (⟨0, 1, 0⟩, ⟨0, 0, 0⟩)] ∧
    (∀ svd, Cv2Right (rodriguesJac svd) ![Real.pi / 2, 0, 0]) ∧
    (let res := applyCorrespondence (fun s d => d - s) (fun c v => c + v) (fun _ => 7) (.arr (2 : ℤ)) (.arr 5) (.ch 0)
     worth (fun s d => d - s) (fun c v => c + v) (fun _ => 7) res = 10 ∧
     worth (fun s d => d - s) (fun c v => c + v) (fun _ => 100) res = 103) := by
  refine ⟨rfl, fun svd => C114_own svd _ (Or.inl ?_), rfl, rfl⟩
  have h1 : |Real.pi / 2| ≤ len3 (vec ![Real.pi / 2, 0, 0]) := abs_le_len3 ![Real.pi / 2, 0, 0] 0
  have h2 := le_trans (le_abs_self _) h1
  have he : (eps : ℝ) ≤ 1 := by norm_num [eps]
  linarith [Real.pi_gt_three]

end Blmath.Props
