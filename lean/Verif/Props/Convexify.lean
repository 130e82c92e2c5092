import Verif.Model.Convexify
import Verif.Spec.Hull
import Verif.Props.RotateXz
import Verif.Proofs.Polyline
import Verif.Props.Apex
import Mathlib.LinearAlgebra.Matrix.NonsingularInverse

/-!
Property C57: convex hulls of planar curves.
-/

namespace Blmath.Props
open Blmath.Geometry Blmath.Spec Blmath.Proofs

/-! ### convex combinations and dropping a coordinate -/

theorem rdot_lin (a b c d : ℝ) : ∀ (ws : List ℝ) (qs : List (V3 ℝ)), ws.length = qs.length →
    (∀ q ∈ qs, a * q.x + b * q.y + c * q.z = d) →
    a * rdot ws (qs.map V3.x) + b * rdot ws (qs.map V3.y) + c * rdot ws (qs.map V3.z) = d * ws.sum
  | [], [], _, _ => by simp [rdot]
  | w :: ws, q :: qs, h, hq => by
    have ih := rdot_lin a b c d ws qs (by simpa using h) (fun r hr => hq r (List.mem_cons_of_mem _ hr))
    have h1 := hq q List.mem_cons_self
    simp only [rdot, List.map_cons, List.zipWith_cons_cons, List.sum_cons] at ih ⊢
    linear_combination ih + w * h1
  | [], q :: qs, h, _ => by simp at h
  | w :: ws, [], h, _ => by simp at h

/-- the coordinate dropped -/
def comp (d : ℕ) (p : V3 ℝ) : ℝ := if d = 0 then p.x else if d = 1 then p.y else p.z

theorem dropDim_fst (d : ℕ) (qs : List (V3 ℝ)) :
    (qs.map (dropDim d)).map Prod.fst = qs.map (fun q => if d = 0 then q.y else q.x) := by
  rw [List.map_map]
  congr 1; funext q
  simp only [Function.comp_def, dropDim]
  split <;> [rfl; split <;> rfl]

theorem dropDim_snd (d : ℕ) (qs : List (V3 ℝ)) :
    (qs.map (dropDim d)).map Prod.snd = qs.map (fun q => if d = 0 then q.z else if d = 1 then q.z else q.y) := by
  rw [List.map_map]
  congr 1; funext q
  simp only [Function.comp_def, dropDim]
  split <;> [rfl; split <;> rfl]

/-- for points of a plane whose normal has a nonzero component `d`, nothing is lost by dropping the
coordinate `d` -/
theorem inHull_drop {n : V3 ℝ} {c : ℝ} {d : ℕ} (hd : comp d n ≠ 0) {qs : List (V3 ℝ)} {p : V3 ℝ}
    (hq : ∀ q ∈ qs, inner3 n q = c) (hp : inner3 n p = c) :
    InHull2 (qs.map (dropDim d)) (dropDim d p) ↔ InHull3 qs p := by
  unfold InHull2 InHull3
  rw [dropDim_fst, dropDim_snd, List.length_map]
  refine exists_congr fun ws => and_congr_right fun hw => ?_
  have key := rdot_lin n.x n.y n.z c ws qs hw.1 hq
  rw [hw.2.2, mul_one] at key
  have hp' : n.x * p.x + n.y * p.y + n.z * p.z = c := hp
  unfold comp at hd
  by_cases h0 : d = 0
  · subst h0
    simp only [if_true] at hd
    simp only [if_true, dropDim]
    constructor
    · rintro ⟨h1, h2⟩
      refine ⟨?_, h1, h2⟩
      rw [h1, h2] at key
      exact mul_left_cancel₀ hd (by linarith)
    · rintro ⟨-, h1, h2⟩; exact ⟨h1, h2⟩
  · by_cases h1 : d = 1
    · subst h1
      simp only [if_true, one_ne_zero, if_false] at hd
      simp only [one_ne_zero, if_false, if_true, dropDim]
      constructor
      · rintro ⟨h1, h2⟩
        refine ⟨h1, ?_, h2⟩
        rw [h1, h2] at key
        exact mul_left_cancel₀ hd (by linarith)
      · rintro ⟨h1, -, h2⟩; exact ⟨h1, h2⟩
    · simp only [if_neg h0, if_neg h1] at hd
      simp only [if_neg h0, if_neg h1, dropDim]
      constructor
      · rintro ⟨h1, h2⟩
        refine ⟨h1, h2, ?_⟩
        rw [h1, h2] at key
        exact mul_left_cancel₀ hd (by linarith)
      · rintro ⟨h1, h2, -⟩; exact ⟨h1, h2⟩

/-- the direction in which a left turn in the kept coordinates turns about the normal -/
noncomputable def turnSign (d : ℕ) (n : V3 ℝ) : ℝ := if d = 1 then -comp d n else comp d n

theorem area_drop {n : V3 ℝ} {c : ℝ} {d : ℕ} {a b p : V3 ℝ} (ha : inner3 n a = c) (hb : inner3 n b = c) (hp : inner3 n p = c) :
    turnSign d n * det3 n (vec3 a b) (vec3 a p) = inner3 n n * area2 (dropDim d a) (dropDim d b) (dropDim d p) := by
  have e1 : n.x * (b.x - a.x) + n.y * (b.y - a.y) + n.z * (b.z - a.z) = 0 := by simp only [inner3] at ha hb; linarith
  have e2 : n.x * (p.x - a.x) + n.y * (p.y - a.y) + n.z * (p.z - a.z) = 0 := by simp only [inner3] at ha hp; linarith
  unfold turnSign comp area2 dropDim
  simp only [det3, vec3, inner3, cross3]
  by_cases h0 : d = 0
  · subst h0
    simp only [if_true, zero_ne_one, if_false]
    linear_combination (n.y * (b.z - a.z) - n.z * (b.y - a.y)) * e2 - (n.y * (p.z - a.z) - n.z * (p.y - a.y)) * e1
  · by_cases h1 : d = 1
    · subst h1
      simp only [if_true, one_ne_zero, if_false]
      linear_combination -((n.z * (b.x - a.x) - n.x * (b.z - a.z)) * e2 - (n.z * (p.x - a.x) - n.x * (p.z - a.z)) * e1)
    · simp only [if_neg h0, if_neg h1]
      linear_combination (n.x * (b.y - a.y) - n.y * (b.x - a.x)) * e2 - (n.x * (p.y - a.y) - n.y * (p.x - a.x)) * e1

theorem argmax3_nonzero {n : V3 ℝ} (hn : n ≠ zero3) : comp (argmax3 (n.map npAbs)) n ≠ 0 := by
  have hx := npAbs_real' n.x
  have hy := npAbs_real' n.y
  have hz := npAbs_real' n.z
  intro h
  apply hn
  have key : |n.x| ≤ |comp (argmax3 (n.map npAbs)) n| ∧ |n.y| ≤ |comp (argmax3 (n.map npAbs)) n| ∧
      |n.z| ≤ |comp (argmax3 (n.map npAbs)) n| := by
    unfold argmax3
    simp only [V3.map, hx, hy, hz, Num.lt_real]
    by_cases h1 : |n.x| < |n.y|
    · rw [if_pos h1]
      by_cases h2 : |n.y| < |n.z|
      · rw [if_pos h2]; simp only [comp]; norm_num; constructor <;> linarith
      · rw [if_neg h2]; simp only [comp]; norm_num; constructor <;> linarith
    · rw [if_neg h1]
      by_cases h2 : |n.x| < |n.z|
      · rw [if_pos h2]; simp only [comp]; norm_num; constructor <;> linarith
      · rw [if_neg h2]; simp only [comp]; norm_num; constructor <;> linarith
  rw [h, abs_zero] at key
  ext
  · exact abs_nonpos_iff.mp key.1
  · exact abs_nonpos_iff.mp key.2.1
  · exact abs_nonpos_iff.mp key.2.2

theorem picks_mem {γ : Type} {ps : List γ} {idx : List ℕ} {qs : List γ} (h : Picks ps idx qs) : ∀ q ∈ qs, q ∈ ps := by
  intro q hq
  have : some q ∈ idx.map (fun i => ps[i]?) := h ▸ List.mem_map_of_mem hq
  obtain ⟨i, -, hi⟩ := List.mem_map.mp this
  exact List.mem_of_getElem? hi

theorem picks_map {γ δ : Type} {ps : List γ} {idx : List ℕ} {qs : List γ} (f : γ → δ) (h : Picks ps idx qs) :
    Picks (ps.map f) idx (qs.map f) := by
  unfold Picks at *
  have : (qs.map f).map some = (qs.map some).map (Option.map f) := by simp [List.map_map, Function.comp_def]
  rw [this, h, List.map_map]
  congr 1; funext i
  simp

theorem picks_of_mapM {γ : Type} {ps : List γ} {idx : List ℕ} (h : ∀ i ∈ idx, i < ps.length) :
    ∃ qs, idx.mapM (fun (i : ℕ) => pyIndex ps (i : ℤ)) = .ok qs ∧ Picks ps idx qs := mapM_pyIndex ps idx h

theorem picks_ne_nil {γ : Type} {ps : List γ} {idx : List ℕ} {qs : List γ} (h : Picks ps idx qs) (hi : idx ≠ []) : qs ≠ [] := by
  rintro rfl
  have := congrArg List.length h
  simp at this
  exact hi (List.eq_nil_of_length_eq_zero (by simpa using this.symm))

/-! ### C57, not flattened -/

/-- the normal used: as given, or the normalised last principal component -/
def UsesNormal (env : HullEnv ℝ) (v : List (V3 ℝ)) (na : NormalArg ℝ) (n : V3 ℝ) : Prop :=
  na = .seq n ∨ na = .array n ∨ na = .none ∧ ∃ m, env.pca v = .ok m ∧ n = scale3 (len3 m)⁻¹ m

theorem usesNormal_eq {env : HullEnv ℝ} {v : List (V3 ℝ)} {na : NormalArg ℝ} {n : V3 ℝ} (h : UsesNormal env v na n) :
    chosenNormal env v na = .ok n := by
  rcases h with rfl | rfl | ⟨rfl, m, hm, rfl⟩
  · rfl
  · rfl
  · have hs : V3.sdiv m m.norm = scale3 (len3 m)⁻¹ m := Vx.normalize3_real m
    simp only [chosenNormal, estimateNormal, hm, ok_bind, pure_eq_ok, hs]

/-- **C57.** Whatever the normal: with a hull routine that keeps its promise on the projected points,
the result is the polyline of the input vertices at the positions given by the hull, in that order,
with closedness kept, and the positions are returned if wanted. -/
theorem C57_vertices (env : HullEnv ℝ) (v : List (V3 ℝ)) (closed want : Bool) (na : NormalArg ℝ) (n : V3 ℝ)
    (hv : 2 ≤ v.length) (hn : UsesNormal env v na n) (idx : List ℕ)
    (hh : env.hull (v.map (dropDim (argmax3 (n.map npAbs)))) = .ok idx)
    (hr : ∀ i ∈ idx, i < v.length) (hne : idx ≠ []) :
    ∃ qs, convexify env (poly v closed) false want na = .ok (poly qs closed, if want then some idx else none) ∧
      Picks v idx qs ∧ ∀ q ∈ qs, q ∈ v := by
  obtain ⟨qs, hq, hp⟩ := picks_of_mapM hr
  refine ⟨qs, ?_, hp, picks_mem hp⟩
  have hnew := new_real qs closed (fun _ => picks_ne_nil hp hne)
  unfold convexify
  rw [if_neg (by simp)]
  have hva : (poly v closed).vArr = .ok v := rfl
  have hc : (poly v closed).closed = closed := rfl
  simp only [hva, ok_bind]
  rw [if_neg (by omega), usesNormal_eq hn]
  simp only [ok_bind, hh, hq, wrapHull, hc, hnew, pure_eq_ok]

/-- the corners of the convex hull of points of a plane, going round in one direction about the
normal -/
structure IsHull3 (n : V3 ℝ) (ps qs : List (V3 ℝ)) : Prop where
  covers : ∀ p ∈ ps, InHull3 qs p
  minimal : ∀ k q, qs[k]? = some q → ¬ InHull3 (qs.eraseIdx k) q
  oneWay : (∀ e ∈ cyclicPairs qs, ∀ p ∈ ps, 0 ≤ det3 n (vec3 e.1 e.2) (vec3 e.1 p)) ∨
    (∀ e ∈ cyclicPairs qs, ∀ p ∈ ps, det3 n (vec3 e.1 e.2) (vec3 e.1 p) ≤ 0)

theorem hull_lift {n : V3 ℝ} {c : ℝ} {d : ℕ} (hd : comp d n ≠ 0) {ps qs : List (V3 ℝ)} (hps : ∀ p ∈ ps, inner3 n p = c)
    (hsub : ∀ q ∈ qs, q ∈ ps) (h : IsHull2 (ps.map (dropDim d)) (qs.map (dropDim d))) : IsHull3 n ps qs := by
  have hq : ∀ q ∈ qs, inner3 n q = c := fun q hq => hps q (hsub q hq)
  have hn0 : n ≠ zero3 := by
    rintro rfl; apply hd; unfold comp; split <;> [rfl; split <;> rfl]
  have hnn : 0 < inner3 n n := by rw [← len3_mul_self]; exact mul_pos (len3_pos hn0) (len3_pos hn0)
  constructor
  · intro p hp
    exact (inHull_drop hd hq (hps p hp)).mp (h.covers _ (List.mem_map_of_mem hp))
  · intro k q hk hin
    refine h.minimal k (dropDim d q) (by simp [hk]) ?_
    rw [List.eraseIdx_map]
    exact (inHull_drop hd (fun r hr => hq r (List.mem_of_mem_eraseIdx hr)) (hq q (List.mem_of_getElem? hk))).mpr hin
  · have key : ∀ e ∈ cyclicPairs qs, ∀ p ∈ ps, 0 ≤ turnSign d n * det3 n (vec3 e.1 e.2) (vec3 e.1 p) := by
      intro e he p hp
      have h1 : e.1 ∈ qs := (List.of_mem_zip he).1
      have h2 : e.2 ∈ qs := List.mem_rotate.mp (List.of_mem_zip he).2
      rw [area_drop (hq _ h1) (hq _ h2) (hps p hp)]
      refine mul_nonneg hnn.le (h.leftTurns (dropDim d e.1, dropDim d e.2) ?_ _ (List.mem_map_of_mem hp))
      unfold cyclicPairs at he ⊢
      rw [← List.map_rotate, List.zip_map]
      exact List.mem_map.mpr ⟨e, he, rfl⟩
    have hs : turnSign d n ≠ 0 := by
      unfold turnSign; split
      · exact neg_ne_zero.mpr hd
      · exact hd
    rcases lt_or_gt_of_ne hs with hs | hs
    · right
      intro e he p hp
      have := key e he p hp
      by_contra hc
      push Not at hc
      nlinarith
    · left
      intro e he p hp
      have := key e he p hp
      by_contra hc
      push Not at hc
      nlinarith

/-- **C57.** For points of a plane and a nonzero normal of that plane, dropping the dimension closest
to the normal loses nothing: the result is the convex hull of the points in space (all of them are
convex combinations of the result, no vertex of the result is one of the others, and the result goes
round in one direction about the normal). -/
theorem C57_planar (env : HullEnv ℝ) (v : List (V3 ℝ)) (closed want : Bool) (na : NormalArg ℝ) (n : V3 ℝ) (c : ℝ)
    (hv : 2 ≤ v.length) (hn : UsesNormal env v na n) (hn0 : n ≠ zero3) (hpl : ∀ p ∈ v, inner3 n p = c) (idx : List ℕ)
    (hh : env.hull (v.map (dropDim (argmax3 (n.map npAbs)))) = .ok idx)
    (hs : HullSpec (v.map (dropDim (argmax3 (n.map npAbs)))) idx) :
    ∃ qs, convexify env (poly v closed) false want na = .ok (poly qs closed, if want then some idx else none) ∧
      Picks v idx qs ∧ IsHull3 n v qs := by
  obtain ⟨qs, h1, hp, hsub⟩ := C57_vertices env v closed want na n hv hn idx hh
    (fun i hi => by simpa using hs.inRange i hi) hs.nonempty
  exact ⟨qs, h1, hp, hull_lift (argmax3_nonzero hn0) hpl hsub (hs.isHull _ (picks_map _ hp))⟩

/-- **C57.** At most one vertex: the same polyline, and no indices even if they are wanted.  No
vertices at all (None): TypeError. -/
theorem C57_small (env : HullEnv ℝ) (p : Polyline ℝ) (flatten want : Bool) (na : NormalArg ℝ) :
    (∀ v, p.v = some v → v.length ≤ 1 → convexify env p flatten want na = .ok (p, none)) ∧
    (p.v = none → convexify env p flatten want na = .error .TypeError) := by
  constructor
  · intro v hv hl
    have hva : p.vArr = .ok v := by unfold Polyline.vArr; rw [hv]
    unfold convexify convexifyFlatten
    simp only [hva, ok_bind, if_pos hl, pure_eq_ok]
    split <;> rfl
  · intro hv
    have hva : p.vArr = .error .TypeError := by unfold Polyline.vArr; rw [hv]
    unfold convexify convexifyFlatten
    simp only [hva, error_bind]
    split <;> rfl

/-! ### C57, flattened -/

theorem centroid_map {R : Mat 3 3 ℝ} {t : V3 ℝ} {ps : List (V3 ℝ)} (hps : ps ≠ []) :
    centroid (ps.map fun p => act R (p + t)) = act R (centroid ps + t) := by
  have hl : (ps.length : ℝ) ≠ 0 := by simpa using hps
  have e : (ps.map fun p => act R (p + t)) = (ps.map (· + t)).map (act R) := by
    rw [List.map_map]; rfl
  unfold centroid
  rw [e, sum3_map_act, List.length_map, List.length_map, sum3_map_add, ← act_scale]
  congr 1
  ext <;> simp [scale3] <;> field_simp

theorem inHull_affine (A : Mat 3 3 ℝ) (t : V3 ℝ) {qs : List (V3 ℝ)} {p : V3 ℝ} (h : InHull3 qs p) :
    InHull3 (qs.map fun q => act A q + t) (act A p + t) := by
  obtain ⟨ws, hw, hx, hy, hz⟩ := h
  have key : ∀ (a b c d : ℝ), rdot ws (qs.map fun q => a * q.x + b * q.y + c * q.z + d) = a * p.x + b * p.y + c * p.z + d := by
    intro a b c d
    have : ∀ (ws : List ℝ) (qs : List (V3 ℝ)), ws.length = qs.length →
        rdot ws (qs.map fun q => a * q.x + b * q.y + c * q.z + d) =
          a * rdot ws (qs.map V3.x) + b * rdot ws (qs.map V3.y) + c * rdot ws (qs.map V3.z) + d * ws.sum := by
      intro ws
      induction ws with
      | nil => intro qs _; simp [rdot]
      | cons w ws ih =>
        intro qs hl
        cases qs with
        | nil => simp at hl
        | cons q qs =>
          have := ih qs (by simpa using hl)
          simp only [rdot, List.map_cons, List.zipWith_cons_cons, List.sum_cons] at this ⊢
          rw [this]; ring
    rw [this ws qs hw.1, hx, hy, hz, hw.2.2, mul_one]
  refine ⟨ws, by rw [List.length_map]; exact hw, ?_, ?_, ?_⟩ <;>
    simp only [List.map_map, Function.comp_def, act_eq, V3.add_x, V3.add_y, V3.add_z] <;> exact key _ _ _ _

theorem det3_act (A : Mat 3 3 ℝ) (a b c : V3 ℝ) : det3 (act A a) (act A b) (act A c) = A.det * det3 a b c := by
  simp only [det3, inner3, cross3, act_eq, Matrix.det_fin_three]
  ring

/-- being a hull is invariant under proper rigid motions -/
theorem isHull3_move {A : Mat 3 3 ℝ} (hA : IsRotation A) (t n : V3 ℝ) {ps qs : List (V3 ℝ)} (h : IsHull3 n ps qs) :
    IsHull3 (act A n) (ps.map fun p => act A p + t) (qs.map fun p => act A p + t) := by
  have hback : ∀ p, act A.transpose (act A p + t) + scale3 (-1) (act A.transpose t) = p := by
    intro p
    rw [act_add, hA.act_back]
    ext <;> simp [scale3]
  have hdet : ∀ a b p, det3 (act A n) (vec3 (act A a + t) (act A b + t)) (vec3 (act A a + t) (act A p + t)) =
      det3 n (vec3 a b) (vec3 a p) := by
    intro a b p
    have hv : ∀ b, vec3 (act A a + t) (act A b + t) = act A (vec3 a b) := by
      intro b
      simp only [act_eq, vec3]
      ext <;> simp <;> ring
    rw [hv, hv, det3_act, hA.2, one_mul]
  have hcyc : ∀ e ∈ cyclicPairs (qs.map fun p => act A p + t), ∃ e' ∈ cyclicPairs qs, e = (act A e'.1 + t, act A e'.2 + t) := by
    intro e he
    unfold cyclicPairs at he ⊢
    rw [← List.map_rotate, List.zip_map] at he
    obtain ⟨e', he', rfl⟩ := List.mem_map.mp he
    exact ⟨e', he', rfl⟩
  refine ⟨?_, ?_, ?_⟩
  · intro p hp
    obtain ⟨p', hp', rfl⟩ := List.mem_map.mp hp
    exact inHull_affine A t (h.covers p' hp')
  · intro k q hk hin
    rw [List.getElem?_map, Option.map_eq_some_iff] at hk
    obtain ⟨q, hk, rfl⟩ := hk
    refine h.minimal k q hk ?_
    have := inHull_affine A.transpose (scale3 (-1) (act A.transpose t)) hin
    rw [List.eraseIdx_map, List.map_map, hback] at this
    have e : ((fun q => act A.transpose q + scale3 (-1) (act A.transpose t)) ∘ fun p => act A p + t) = id := by
      funext p; exact hback p
    rwa [e, List.map_id] at this
  · rcases h.oneWay with h | h
    · left
      intro e he p hp
      obtain ⟨e', he', rfl⟩ := hcyc e he
      obtain ⟨p', hp', rfl⟩ := List.mem_map.mp hp
      rw [hdet]; exact h e' he' p' hp'
    · right
      intro e he p hp
      obtain ⟨e', he', rfl⟩ := hcyc e he
      obtain ⟨p', hp', rfl⟩ := List.mem_map.mp hp
      rw [hdet]; exact h e' he' p' hp'

/-- `p` moved along `m` onto the plane perpendicular to `m` through the centroid of the points -/
noncomputable def flatAt (m : V3 ℝ) (v : List (V3 ℝ)) (p : V3 ℝ) : V3 ℝ := along p (inner3 m (centroid v) - inner3 m p) m

/-- **C57.** The flattened variant, for a unit normal given as a list or tuple.  There is a unit
vector `m`, equal to the normal except when the normal is within 1e-5 radians of the y axis without
lying on it and then within 2e-5 of it, and there are plane coordinates `π` of the points moved along `m` onto
the plane perpendicular to `m` through the centroid of the points, with equal distances, such that:
the hull routine is called with these coordinates; if it fails, so does the function; otherwise the
result consists of the moved points at the positions given by the hull, and it is the convex hull of
all moved points. -/
theorem C57_flatten (env : HullEnv ℝ) (hcv : RotationVectorSpec env.cvRodrigues)
    (hinv : ∀ a b, env.inv a = .ok b → a * b = 1) (hinv' : ∀ a, a.det ≠ 0 → ∃ b, env.inv a = .ok b)
    (hhull : ∀ ps idx, env.hull ps = .ok idx → HullSpec ps idx)
    (v : List (V3 ℝ)) (closed want : Bool) (n : V3 ℝ) (hv : 2 ≤ v.length) (hn : len3 n = 1) :
    ∃ (m : V3 ℝ) (π : V3 ℝ → ℝ × ℝ), len3 m = 1 ∧ dist3 m n ≤ 2 / 100000 ∧
      (1 / 100000 ≤ min |Real.arccos n.y - Real.pi| |Real.arccos n.y| ∨ n = ey ∨ n = ⟨0, -1, 0⟩ → m = n) ∧
      (∀ p q, ((π q).1 - (π p).1) ^ 2 + ((π q).2 - (π p).2) ^ 2 = dist3 (flatAt m v p) (flatAt m v q) ^ 2) ∧
      (∀ e, env.hull (v.map π) = .error e → convexify env (poly v closed) true want (.seq n) = .error e) ∧
      (∀ idx, env.hull (v.map π) = .ok idx → ∃ qs, Picks v idx qs ∧
        convexify env (poly v closed) true want (.seq n) =
          .ok (poly (qs.map (flatAt m v)) closed, if want then some idx else none) ∧
        IsHull3 m (v.map (flatAt m v)) (qs.map (flatAt m v))) := by
  have hne : v ≠ [] := by rintro rfl; simp at hv
  obtain ⟨R, p0, hrot, hR, -, hd, hx⟩ := C56_rotate env.pca env.cvRodrigues hcv v hne n hn
  obtain ⟨s, hs⟩ : ∃ s, s = p0.getD zero3 := ⟨_, rfl⟩
  obtain ⟨m, hm⟩ : ∃ m, m = act R.transpose ey := ⟨_, rfl⟩
  have hmR : act R m = ey := by rw [hm, hR.act_forth]
  have hy : ∀ w : V3 ℝ, (act R w).y = inner3 m w := by
    intro w
    rw [← hR.inner m w, hmR]; simp [inner3, ey]
  -- the mean height
  have hmean : (meanPts (v.map fun p => act R (p + p0.getD zero3))).y = inner3 m (centroid v) + inner3 m s := by
    rw [meanPts_real, centroid_map hne, hy, hs]
    simp [inner3]; ring
  obtain ⟨f, hf⟩ : ∃ f : V3 ℝ → V3 ℝ, f = fun p => ⟨(act R (p + s)).x, inner3 m (centroid v) + inner3 m s, (act R (p + s)).z⟩ := ⟨_, rfl⟩
  obtain ⟨b, hb⟩ := hinv' (Mat.tr R) (by rw [Mat.tr_eq, Matrix.det_transpose, hR.2]; exact one_ne_zero)
  have hbR : b = R := by
    have h1 := hinv _ _ hb
    rw [Mat.tr_eq] at h1
    have h2 : R * (R.transpose * b) = R * 1 := by rw [h1]
    rwa [← mul_assoc, hR.mul_transpose, one_mul, mul_one] at h2
  have hact : ∀ q, act R.transpose (f q) = along (q + s) (inner3 m (centroid v) - inner3 m q) m := by
    intro q
    have e : f q = act R (along (q + s) (inner3 m (centroid v) - inner3 m q) m) := by
      have ea : ∀ (a : V3 ℝ) (k : ℝ), along a k m = a + scale3 k m := fun a k => rfl
      have hy' := hy (q + s)
      have hin : inner3 m (q + s) = inner3 m q + inner3 m s := by simp [inner3]; ring
      rw [ea, act_add, act_scale, hmR, hf]
      ext
      · simp [scale3, ey]
      · simp only [V3.add_y, hy', hin, scale3, ey]; ring
      · simp [scale3, ey]
    rw [e, hR.act_back]
  have hflat : ∀ q, act R (flatAt m v q) + act R s = f q := by
    intro q
    have := hact q
    rw [← act_add, ← hR.act_forth (f q), this]
    congr 1
    ext <;> simp [flatAt, along] <;> ring
  have hflat' : ∀ q, act R.transpose (f q) + scale3 (-1) s = flatAt m v q := by
    intro q
    rw [hact]
    ext <;> simp [flatAt, along, scale3] <;> ring
  have hstep : convexify env (poly v closed) true want (.seq n) =
      (env.hull (v.map fun p => ((f p).x, (f p).z)) >>= fun idx =>
        (idx.mapM fun (i : ℕ) => pyIndex (v.map f) (i : ℤ)) >>= fun rh =>
          env.inv (Mat.tr R) >>= fun b => wrapHull closed want (unshift p0 (rh.map (Mat.app (Mat.tr b)))) idx) := by
    unfold convexify convexifyFlatten
    rw [if_pos rfl]
    have hva : (poly v closed).vArr = .ok v := rfl
    have hc : (poly v closed).closed = closed := rfl
    simp only [hva, ok_bind]
    rw [if_neg (by omega), hrot]
    simp only [ok_bind, hmean]
    rw [List.map_map (g := fun r : V3 ℝ => (⟨r.x, inner3 m (centroid v) + inner3 m s, r.z⟩ : V3 ℝ)), show ((fun r : V3 ℝ => (⟨r.x, inner3 m (centroid v) + inner3 m s, r.z⟩ : V3 ℝ)) ∘ fun p => act R (p + p0.getD zero3)) = f by
      rw [hf, hs]; rfl]
    rw [List.map_map]
    rfl
  refine ⟨m, fun p => ((f p).x, (f p).z), ?_, ?_, ?_, ?_, ?_, ?_⟩
  · rw [hm, hR.transpose.len]; simp [len3, ey]
  · have e : vec3 m n = act R.transpose (vec3 ey (act R n)) := by
      have h1 : vec3 ey (act R n) = act R n + scale3 (-1) ey := by
        ext <;> simp only [vec3, scale3, V3.add_x, V3.add_y, V3.add_z] <;> ring
      rw [h1, act_add, act_scale, hR.act_back, ← hm]
      ext <;> simp [vec3, scale3] <;> ring
    have : dist3 m n = dist3 ey (act R n) := by
      unfold dist3; rw [e, hR.transpose.len]
    rw [this, dist3_comm]; exact hd
  · intro h
    have := hx h
    rw [hm, ← this, hR.act_back]
  · intro p q
    have h1 : vec3 (f p) (f q) = act R (vec3 (flatAt m v p) (flatAt m v q)) := by
      rw [← hflat, ← hflat]
      simp only [act_eq, vec3]
      ext <;> simp <;> ring
    have h2 : dist3 (flatAt m v p) (flatAt m v q) = dist3 (f p) (f q) := by
      unfold dist3; rw [h1, hR.len]
    have h3 : (f p).y = (f q).y := by rw [hf]
    rw [h2]
    unfold dist3
    rw [len3_sq]
    simp only [vec3, h3]; ring
  · intro e he
    rw [hstep, he]; rfl
  · intro idx hh
    have hsp := hhull _ _ hh
    have hir' : ∀ i ∈ idx, i < v.length := fun i hi => by simpa using hsp.inRange i hi
    obtain ⟨qs, -, hp⟩ := picks_of_mapM hir'
    obtain ⟨qs', hq', hp'⟩ := picks_of_mapM (ps := v.map f) (idx := idx) (fun i hi => by simpa using hir' i hi)
    have hqq : qs' = qs.map f := by
      have h1 := picks_map f hp
      have h2 : qs'.map some = (qs.map f).map some := by rw [hp', h1]
      exact List.map_injective_iff.mpr (Option.some_injective _) h2
    refine ⟨qs, hp, ?_, ?_⟩
    · rw [hstep, hh]
      simp only [ok_bind]
      rw [hq']
      simp only [ok_bind, hb, hqq, hbR]
      have hcurve : unshift p0 ((qs.map f).map (Mat.app (Mat.tr R))) = qs.map (flatAt m v) := by
        have h1 : (qs.map f).map (Mat.app (Mat.tr R)) = qs.map fun q => along (q + s) (inner3 m (centroid v) - inner3 m q) m := by
          rw [List.map_map]
          congr 1; funext q
          simp only [Function.comp_def, app_real, Mat.tr_eq]
          exact hact q
        rw [h1]
        cases p0 with
        | none =>
          simp only [Option.getD_none] at hs
          subst hs
          simp only [unshift]
          congr 1; funext q
          ext <;> simp [flatAt, along, zero3]
        | some p0 =>
          simp only [Option.getD_some] at hs
          subst hs
          simp only [unshift, translation, List.map_map]
          congr 1; funext q
          ext <;> simp [flatAt, along] <;> ring
      rw [hcurve]
      have hnew := new_real (qs.map (flatAt m v)) closed (fun _ => by simpa using picks_ne_nil hp hsp.nonempty)
      simp only [wrapHull, hnew, ok_bind, pure_eq_ok]
    · have e1 : ∀ l : List (V3 ℝ), (l.map f).map (dropDim 1) = l.map fun p => ((f p).x, (f p).z) := by
        intro l; rw [List.map_map]; rfl
      have h2 : IsHull2 ((v.map f).map (dropDim 1)) ((qs.map f).map (dropDim 1)) := by
        rw [e1, e1]; exact hsp.isHull _ (picks_map _ hp)
      have h3 : IsHull3 ey (v.map f) (qs.map f) := by
        refine hull_lift (c := inner3 m (centroid v) + inner3 m s) (d := 1) (by simp [comp, ey]) ?_ ?_ h2
        · intro p hp
          obtain ⟨p, -, rfl⟩ := List.mem_map.mp hp
          rw [hf]; simp [inner3, ey]
        · exact picks_mem (picks_map f hp)
      have h4 := isHull3_move hR.transpose (scale3 (-1) s) ey h3
      rw [← hm, List.map_map, List.map_map] at h4
      have e2 : ((fun p => act R.transpose p + scale3 (-1) s) ∘ f) = flatAt m v := funext hflat'
      rwa [e2] at h4

/-- **C57.** So all points of the flattened result lie on the plane through the centroid perpendicular
to `m`: their heights along `m` are equal to the mean height. -/
theorem C57_flat_plane (m : V3 ℝ) (hm : len3 m = 1) (v : List (V3 ℝ)) (q : V3 ℝ) :
    inner3 m (flatAt m v q) = inner3 m (centroid v) := by
  have h := len3_mul_self m
  rw [hm] at h
  simp only [flatAt, inner3, along] at *
  linear_combination (-(m.x * (centroid v).x + m.y * (centroid v).y + m.z * (centroid v).z) +
    (m.x * q.x + m.y * q.y + m.z * q.z)) * h

/-- **C57.** With a normal given as an array the flattened variant raises ValueError (for two vertices
or more), although the other one accepts it. -/
theorem C57_flatten_array (env : HullEnv ℝ) (v : List (V3 ℝ)) (closed want : Bool) (n : V3 ℝ) (hv : 2 ≤ v.length) :
    convexify env (poly v closed) true want (.array n) = .error .ValueError := by
  unfold convexify convexifyFlatten
  rw [if_pos rfl]
  have hva : (poly v closed).vArr = .ok v := rfl
  simp only [hva, ok_bind]
  rw [if_neg (by omega), (C56_errors env.pca env.cvRodrigues v n .none).2.2]
  rfl

/-- **C57.** Without a normal, the flattened variant uses the normalised last principal component. -/
theorem C57_flatten_estimate (env : HullEnv ℝ) (v : List (V3 ℝ)) (closed want : Bool) (n : V3 ℝ)
    (hp : env.pca v = .ok n) :
    convexify env (poly v closed) true want .none = convexify env (poly v closed) true want (.seq (scale3 (len3 n)⁻¹ n)) := by
  unfold convexify
  rw [if_pos rfl, if_pos rfl]
  unfold convexifyFlatten
  have hva : (poly v closed).vArr = .ok v := rfl
  simp only [hva, ok_bind, C56_estimate env.pca env.cvRodrigues v n hp]

/-! ### non-vacuity -/

/-- a triangle and a point inside it -/
noncomputable def tri2 : List (ℝ × ℝ) := [(0, 0), (1, 0), (1 / 4, 1 / 4), (0, 1)]

theorem tri2_hull : HullSpec tri2 [0, 1, 3] := by
  refine ⟨by simp, by simp [tri2], ?_⟩
  intro qs hq
  have hqs : qs = [(0, 0), (1, 0), (0, 1)] := by
    have : qs.map some = [(0, 0), (1, 0), (0, 1)].map some := by rw [hq]; simp [tri2]
    exact List.map_injective_iff.mpr (Option.some_injective _) this
  subst hqs
  refine ⟨?_, ?_, ?_⟩
  · intro p hp
    simp only [tri2, List.mem_cons, List.not_mem_nil, or_false] at hp
    rcases hp with rfl | rfl | rfl | rfl
    · exact ⟨[1, 0, 0], ⟨rfl, by simp, by norm_num⟩, by simp [rdot], by simp [rdot]⟩
    · exact ⟨[0, 1, 0], ⟨rfl, by simp, by norm_num⟩, by simp [rdot], by simp [rdot]⟩
    · exact ⟨[1 / 2, 1 / 4, 1 / 4], ⟨rfl, by simp, by norm_num⟩, by simp [rdot], by simp [rdot]⟩
    · exact ⟨[0, 0, 1], ⟨rfl, by simp, by norm_num⟩, by simp [rdot], by simp [rdot]⟩
  · rintro k q hk ⟨ws, ⟨hl, hw, hs⟩, h1, h2⟩
    have hk3 : k < 3 := by
      by_contra hc
      rw [List.getElem?_eq_none (by simpa using hc)] at hk; cases hk
    have hl2 : ws.length = 2 := by
      rw [hl, List.length_eraseIdx_of_lt (by simpa using hk3)]; rfl
    obtain ⟨a, b, rfl⟩ := List.length_eq_two.mp hl2
    have h0 : k = 0 ∨ k = 1 ∨ k = 2 := by omega
    rcases h0 with rfl | rfl | rfl <;> simp at hk <;> subst hk <;> simp [rdot] at h1 h2 hs <;> linarith
  · intro e he p hp
    simp [cyclicPairs] at he
    simp only [tri2, List.mem_cons, List.not_mem_nil, or_false] at hp
    rcases he with rfl | rfl | rfl <;> rcases hp with rfl | rfl | rfl | rfl <;> norm_num [area2]

/-- non-vacuity of `C57_planar`: the triangle in the plane x + y + 2 z = 4 -/
example (env : HullEnv ℝ) (hh : env.hull tri2 = .ok [0, 1, 3]) :
    ∃ qs, convexify env (poly [⟨0, 0, 2⟩, ⟨1, 0, 3 / 2⟩, ⟨1 / 4, 1 / 4, 7 / 4⟩, ⟨0, 1, 3 / 2⟩] true) false true (.seq ⟨1, 1, 2⟩) =
        .ok (poly qs true, some [0, 1, 3]) ∧
      IsHull3 ⟨1, 1, 2⟩ [⟨0, 0, 2⟩, ⟨1, 0, 3 / 2⟩, ⟨1 / 4, 1 / 4, 7 / 4⟩, ⟨0, 1, 3 / 2⟩] qs := by
  have ha : argmax3 ((⟨1, 1, 2⟩ : V3 ℝ).map npAbs) = 2 := by
    simp [argmax3, V3.map, npAbs_real']
  have hd : ([⟨0, 0, 2⟩, ⟨1, 0, 3 / 2⟩, ⟨1 / 4, 1 / 4, 7 / 4⟩, ⟨0, 1, 3 / 2⟩] : List (V3 ℝ)).map (dropDim 2) = tri2 := by
    simp [dropDim, tri2]
  obtain ⟨qs, h1, -, h2⟩ := C57_planar env [⟨0, 0, 2⟩, ⟨1, 0, 3 / 2⟩, ⟨1 / 4, 1 / 4, 7 / 4⟩, ⟨0, 1, 3 / 2⟩] true true (.seq ⟨1, 1, 2⟩) ⟨1, 1, 2⟩ 4
    (by simp) (.inl rfl) (by simp [zero3]) (by
      intro p hp
      simp only [List.mem_cons, List.not_mem_nil, or_false] at hp
      rcases hp with rfl | rfl | rfl | rfl <;> norm_num [inner3]) [0, 1, 3] (by rw [ha, hd]; exact hh) (by rw [ha, hd]; exact tri2_hull)
  exact ⟨qs, h1, h2⟩

/-- the hypotheses of `C57_flatten` can be met, by a hull routine that does not always fail -/
example : ∃ env : HullEnv ℝ, RotationVectorSpec env.cvRodrigues ∧ (∀ a b, env.inv a = .ok b → a * b = 1) ∧
    (∀ a, a.det ≠ 0 → ∃ b, env.inv a = .ok b) ∧
    (∀ ps idx, env.hull ps = .ok idx → HullSpec ps idx) ∧
    (∀ ps, (∃ idx, HullSpec ps idx) → ∃ idx, env.hull ps = .ok idx) ∧ (∃ idx, env.hull tri2 = .ok idx) := by
  classical
  obtain ⟨cv, hcv⟩ := rotationVectorSpec_sat
  have hsome : ∀ ps, (∃ idx, HullSpec ps idx) → ∃ idx : List ℕ,
      (if h : ∃ idx, HullSpec ps idx then .ok h.choose else .error .ValueError : PyM (List ℕ)) = .ok idx := by
    intro ps h; exact ⟨h.choose, by simp [h]⟩
  refine ⟨⟨fun ps => if h : ∃ idx, HullSpec ps idx then .ok h.choose else .error .ValueError,
      fun a => if a.det = 0 then .error .LinAlgError else .ok a⁻¹, fun _ => .error .ValueError, cv⟩,
    hcv, ?_, ?_, ?_, hsome, hsome tri2 ⟨_, tri2_hull⟩⟩
  · intro a b h
    simp only at h
    split at h
    · cases h
    · rename_i hd; cases h; exact Matrix.mul_nonsing_inv a (Ne.isUnit hd)
  · intro a ha; exact ⟨a⁻¹, by simp [ha]⟩
  · intro ps idx h
    simp only at h
    split at h
    · rename_i hx; cases h; exact hx.choose_spec
    · cases h

end Blmath.Props
