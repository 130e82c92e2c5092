import Verif.Spec.BestPlane
import Verif.Props.FitPlane

/-!
Property C144: when the fitted plane is the only best one, and planes fitted to moved, scaled, mirrored and reordered points.
-/

namespace Blmath.Props
open Blmath.Geometry Blmath.Spec

namespace FY

theorem unit_sq {pl : Plane ℝ} (h : UnitNormal pl) : inner3 pl.n pl.n = 1 := by
  rw [inner3_self, show len3 pl.n = 1 from h]; norm_num

theorem inner_unit {n : V3 ℝ} (h : inner3 n n = 1) : len3 n = 1 := by
  rw [inner3_self] at h
  exact (pow_left_inj₀ (len3_nonneg _) zero_le_one two_ne_zero).mp (by rw [h]; norm_num)

theorem sq_eq (pl : Plane ℝ) {ps : List (V3 ℝ)} (hp : 2 ≤ ps.length) :
    sqDistSum pl ps = ((ps.length : ℝ) - 1) * inner3 pl.n (act (covMat ps) pl.n) + ps.length * height pl (centroid ps) ^ 2 := by
  have hne : ps ≠ [] := by rintro rfl; simp at hp
  have e := sqDist_shift pl.n pl.r0 (centroid ps) ps
  rw [sum3_centroid hne, sub_self, mul_zero, add_zero, cov_quad hp] at e
  exact e

theorem pos {ps : List (V3 ℝ)} (hp : 2 ≤ ps.length) : (0 : ℝ) < (ps.length : ℝ) - 1 := by
  have : (2 : ℝ) ≤ ps.length := by exact_mod_cast hp
  linarith

/-- best planes pass through the centroid, and their normal has the least variance -/
theorem best_iff {pl : Plane ℝ} {ps : List (V3 ℝ)} (hp : 2 ≤ ps.length) : BestPlane pl ps ↔ UnitNormal pl ∧ height pl (centroid ps) = 0 ∧
    ∀ n, inner3 n n = 1 → inner3 pl.n (act (covMat ps) pl.n) ≤ inner3 n (act (covMat ps) n) := by
  have hl := pos hp
  constructor
  · rintro ⟨hu, hm⟩
    refine ⟨hu, ?_, fun n hn => ?_⟩
    · have := hm ⟨centroid ps, pl.n⟩ hu
      rw [sq_eq pl hp, sq_eq _ hp] at this
      have z : height ⟨centroid ps, pl.n⟩ (centroid ps) = 0 := by simp [height, vec3, inner3]
      rw [z] at this
      have hs : height pl (centroid ps) ^ 2 ≤ 0 := by
        have h2 : (0 : ℝ) < ps.length := by linarith
        by_contra hc
        have := mul_pos h2 (not_le.mp hc)
        simp only at *
        linarith
      exact pow_eq_zero_iff two_ne_zero |>.mp (le_antisymm hs (sq_nonneg _))
    · have := hm ⟨centroid ps, n⟩ (inner_unit hn)
      rw [sq_eq pl hp, sq_eq _ hp] at this
      have z : height ⟨centroid ps, n⟩ (centroid ps) = 0 := by simp [height, vec3, inner3]
      rw [z] at this
      have h2 : 0 ≤ (ps.length : ℝ) * height pl (centroid ps) ^ 2 := by positivity
      have : ((ps.length : ℝ) - 1) * inner3 pl.n (act (covMat ps) pl.n) ≤ ((ps.length : ℝ) - 1) * inner3 n (act (covMat ps) n) := by
        simp only at *
        linarith
      exact le_of_mul_le_mul_left this hl
  · rintro ⟨hu, h0, hm⟩
    refine ⟨hu, fun pl' hu' => ?_⟩
    rw [sq_eq pl hp, sq_eq pl' hp, h0]
    have := mul_le_mul_of_nonneg_left (hm pl'.n (unit_sq hu')) hl.le
    have h2 : 0 ≤ (ps.length : ℝ) * height pl' (centroid ps) ^ 2 := by positivity
    linarith

theorem height_at {pl : Plane ℝ} {c : V3 ℝ} (h : height pl c = 0) (q : V3 ℝ) : height pl q = inner3 (vec3 c q) pl.n := by
  simp only [height, inner3, vec3] at *
  linarith

theorem same_of_normals {pl pl' : Plane ℝ} {c : V3 ℝ} (h : height pl c = 0) (h' : height pl' c = 0)
    (hn : pl'.n = pl.n ∨ pl'.n = -pl.n) : SamePlane pl pl' := by
  rcases hn with hn | hn
  · exact .inl fun q => by rw [height_at h, height_at h', hn]
  · exact .inr fun q => by rw [height_at h, height_at h', hn]; simp [inner3]; ring

theorem normals_of_same {pl pl' : Plane ℝ} (h : SamePlane pl pl') : pl'.n = pl.n ∨ pl'.n = -pl.n := by
  have key : ∀ s : ℝ, (∀ q, height pl' q = s * height pl q) → pl'.n = scale3 s pl.n := by
    intro s hs
    have h0 := hs ⟨0, 0, 0⟩
    have hx := hs ⟨1, 0, 0⟩
    have hy := hs ⟨0, 1, 0⟩
    have hz := hs ⟨0, 0, 1⟩
    simp only [height, inner3, vec3] at h0 hx hy hz
    ext <;> simp only [scale3] <;> linarith
  rcases h with h | h
  · left
    rw [key 1 fun q => by rw [h q, one_mul]]
    ext <;> simp [scale3]
  · right
    rw [key (-1) fun q => by rw [h q]; ring]
    ext <;> simp [scale3]

/-- two unit vectors whose product is at least one in square -/
theorem parallel {n u : V3 ℝ} (hn : inner3 n n = 1) (hu : inner3 u u = 1) (h : 1 ≤ inner3 u n ^ 2) : n = u ∨ n = -u := by
  have e : (n.x - inner3 u n * u.x) ^ 2 + (n.y - inner3 u n * u.y) ^ 2 + (n.z - inner3 u n * u.z) ^ 2 = 1 - inner3 u n ^ 2 := by
    have : (n.x - inner3 u n * u.x) ^ 2 + (n.y - inner3 u n * u.y) ^ 2 + (n.z - inner3 u n * u.z) ^ 2 =
        inner3 n n - 2 * inner3 u n * inner3 u n + inner3 u n ^ 2 * inner3 u u := by simp only [inner3]; ring
    rw [this, hn, hu]; ring
  have a0 := sq_nonneg (n.x - inner3 u n * u.x)
  have a1 := sq_nonneg (n.y - inner3 u n * u.y)
  have a2 := sq_nonneg (n.z - inner3 u n * u.z)
  have z : ∀ x : ℝ, x ^ 2 = 0 → x = 0 := fun x hx => pow_eq_zero_iff (two_ne_zero) |>.mp hx
  have z0 := z (n.x - inner3 u n * u.x) (by linarith)
  have z1 := z (n.y - inner3 u n * u.y) (by linarith)
  have z2 := z (n.z - inner3 u n * u.z) (by linarith)
  have hs : inner3 u n ^ 2 = 1 := by linarith
  rcases mul_self_eq_one_iff.mp (show inner3 u n * inner3 u n = 1 by rw [← hs, sq]) with h1 | h1
  · left
    rw [h1] at z0 z1 z2
    ext <;> linarith
  · right
    rw [h1] at z0 z1 z2
    ext <;> simp <;> linarith

theorem inner_nonneg (t : V3 ℝ) : 0 ≤ inner3 t t := by
  simp only [inner3]; nlinarith [mul_self_nonneg t.x, mul_self_nonneg t.y, mul_self_nonneg t.z]

/-- the order of the three eigenvalues -/
theorem order {w : Fin 3 → ℝ} {A v : Mat 3 3 ℝ} (hE : EigSpec A w v) : ∃ i j k : Fin 3, i ≠ j ∧ j ≠ k ∧ i ≠ k ∧ w k ≤ w j ∧ w j ≤ w i ∧
    det3 (column v i) (column v j) (column v k) ≠ 0 := by
  obtain ⟨_, as, has, -⟩ := C32_satisfiable
  obtain ⟨i, j, k, -, h1, h2, hd⟩ := argsort_three (has w)
  have d := hd v hE.independent
  refine ⟨i, j, k, ?_, ?_, ?_, h1, h2, d⟩ <;> rintro rfl <;> apply d <;> simp only [det3, inner3, cross3] <;> ring

theorem smallest {A v : Mat 3 3 ℝ} (hA : A.transpose = A) {w : Fin 3 → ℝ} (hE : EigSpec A w v) {m : Fin 3} (hm : ∀ i, w m ≤ w i) (t : V3 ℝ) :
    w m * inner3 t t ≤ inner3 t (act A t) := by
  obtain ⟨i, j, k, -, -, -, h1, h2, d⟩ := order hE
  have := quad_min hA (hE.eigen i) (hE.eigen j) (hE.eigen k) d h2 h1 t
  have h3 := mul_le_mul_of_nonneg_right (hm k) (inner_nonneg t)
  linarith

theorem eig_quad {A v : Mat 3 3 ℝ} {w : Fin 3 → ℝ} (hE : EigSpec A w v) (m : Fin 3) :
    inner3 (column v m) (act A (column v m)) = w m := by
  rw [hE.eigen m]
  have : inner3 (column v m) (scale3 (w m) (column v m)) = w m * inner3 (column v m) (column v m) := by simp only [inner3, scale3]; ring
  rw [this, inner3_self, hE.unit m]; norm_num

theorem col_unit {A v : Mat 3 3 ℝ} {w : Fin 3 → ℝ} (hE : EigSpec A w v) (m : Fin 3) : inner3 (column v m) (column v m) = 1 := by
  rw [inner3_self, hE.unit m]; norm_num

/-- when one eigenvalue is smaller than the two others, only its eigenvector has the least variance -/
theorem strict {A v : Mat 3 3 ℝ} (hA : A.transpose = A) {w : Fin 3 → ℝ} (hE : EigSpec A w v) {m : Fin 3} (hm : ∀ i, i ≠ m → w m < w i)
    {n : V3 ℝ} (hn : inner3 n n = 1) (hq : inner3 n (act A n) ≤ w m) : n = column v m ∨ n = -column v m := by
  obtain ⟨i, j, k, hij, hjk, hik, h1, h2, d⟩ := order hE
  have hk : k = m := by
    by_contra hk
    have h3 := hm k hk
    have : m = i ∨ m = j := by omega
    rcases this with rfl | rfl <;> linarith
  subst hk
  have hj := hm j hjk
  have hi := hm i hik
  have ou : inner3 (column v i) (column v k) = 0 := by
    rcases mul_eq_zero.mp (eig_orth hA (hE.eigen i) (hE.eigen k)) with h | h
    · linarith
    · exact h
  have ov : inner3 (column v j) (column v k) = 0 := by
    rcases mul_eq_zero.mp (eig_orth hA (hE.eigen j) (hE.eigen k)) with h | h
    · linarith
    · exact h
  obtain ⟨u, hu⟩ : ∃ u, u = column v k := ⟨_, rfl⟩
  obtain ⟨e, he⟩ : ∃ e, e = w j - w k := ⟨_, rfl⟩
  obtain ⟨B, hB⟩ : ∃ B : Mat 3 3 ℝ, B = fun a b => A a b + e * ((![u.x, u.y, u.z] : Fin 3 → ℝ) a * (![u.x, u.y, u.z] : Fin 3 → ℝ) b) := ⟨_, rfl⟩
  have act_B : ∀ t, act B t = act A t + scale3 (e * inner3 u t) u := by
    intro t
    rw [act_eq, act_eq, hB]
    ext <;> simp [scale3, inner3] <;> ring
  have hBt : B.transpose = B := by
    ext a b
    have : A b a = A a b := congrFun (congrFun hA a) b
    rw [Matrix.transpose_apply, hB]
    simp only [this]; ring
  have comm : ∀ a b : V3 ℝ, inner3 a b = inner3 b a := by intro a b; simp only [inner3]; ring
  have b1 : act B (column v i) = scale3 (w i) (column v i) := by
    rw [act_B, hE.eigen i, hu, comm, ou]; ext <;> simp [scale3]
  have b2 : act B (column v j) = scale3 (w j) (column v j) := by
    rw [act_B, hE.eigen j, hu, comm, ov]; ext <;> simp [scale3]
  have b3 : act B (column v k) = scale3 (w j) (column v k) := by
    rw [act_B, hE.eigen k, hu, col_unit hE k, he]; ext <;> simp [scale3] <;> ring
  have q := quad_min hBt b1 b2 b3 d h2 le_rfl n
  rw [hn, mul_one, act_B] at q
  have lin : inner3 n (act A n + scale3 (e * inner3 u n) u) = inner3 n (act A n) + e * inner3 u n ^ 2 := by
    simp [inner3, scale3]; ring
  rw [lin] at q
  have h5 : e * 1 ≤ e * inner3 u n ^ 2 := by rw [he] at q ⊢; linarith
  have h6 := le_of_mul_le_mul_left h5 (by rw [he]; linarith)
  have hu1 : inner3 u u = 1 := by rw [hu]; exact col_unit hE k
  rw [← hu]
  exact parallel hn hu1 h6

theorem best_col {ps : List (V3 ℝ)} (hp : 2 ≤ ps.length) {w : Fin 3 → ℝ} {v : Mat 3 3 ℝ} (hE : EigSpec (covMat ps) w v) {m : Fin 3}
    (hm : ∀ i, w m ≤ w i) : BestPlane ⟨centroid ps, column v m⟩ ps := by
  refine (best_iff hp).mpr ⟨hE.unit m, by simp [height, vec3, inner3], fun n hn => ?_⟩
  have := smallest (cov_symm ps) hE hm n
  rw [hn, mul_one] at this
  simpa only [eig_quad hE m] using this

/-- what the function computes -/
theorem call {eig : Mat 3 3 ℝ → PyM ((Fin 3 → ℝ) × Mat 3 3 ℝ)} {argsort : (Fin 3 → ℝ) → List (Fin 3)} {ps : List (V3 ℝ)} (hp : 2 ≤ ps.length)
    {w : Fin 3 → ℝ} {v : Mat 3 3 ℝ} (he : eig (covMat ps) = .ok (w, v)) {i j k : Fin 3} (hl : argsort w = [k, j, i]) :
    Plane.fitFromPoints eig argsort ps = Plane.mk' (centroid ps) (cross3 (column v i) (column v j)) := by
  unfold Plane.fitFromPoints
  rw [if_neg (by omega), he]
  simp only [ok_bind, hl, List.reverse_cons, List.reverse_nil, List.nil_append, List.cons_append]
  have h0 : pyIndex [i, j, k] 0 = .ok i := rfl
  have h1 : pyIndex [i, j, k] 1 = .ok j := rfl
  rw [h0, h1]
  simp only [ok_bind, meanPts_real]
  rfl

theorem fit_best {eig : Mat 3 3 ℝ → PyM ((Fin 3 → ℝ) × Mat 3 3 ℝ)} {argsort : (Fin 3 → ℝ) → List (Fin 3)}
    (hs : ∀ w, IsArgsort w (argsort w)) {ps : List (V3 ℝ)} (hp : 2 ≤ ps.length)
    (heig : ∀ A : Mat 3 3 ℝ, A.transpose = A → ∃ w v, eig A = .ok (w, v) ∧ EigSpec A w v) {pl : Plane ℝ}
    (h : Plane.fitFromPoints eig argsort ps = .ok pl) : BestPlane pl ps ∧ pl.r0 = centroid ps := by
  rcases C32_fit eig argsort hs ps hp heig with ⟨pl', h', hr, hu, hm⟩ | ⟨h', -⟩
  · rw [h] at h'
    injection h' with h'
    subst h'
    exact ⟨⟨hu, hm⟩, hr⟩
  · rw [h] at h'; cases h'

/-! ### moving -/

theorem orth_inner {A : Mat 3 3 ℝ} (hA : A.transpose * A = 1) (v w : V3 ℝ) : inner3 (act A v) (act A w) = inner3 v w := by
  have adj : ∀ w', inner3 (act A v) w' = inner3 v (act A.transpose w') := by
    intro w'; simp only [act_eq, inner3, Matrix.transpose_apply]; ring
  rw [adj, ← act_mul, hA, act_one]

def push (k : ℝ) (A : Mat 3 3 ℝ) (t : V3 ℝ) (pl : Plane ℝ) : Plane ℝ := ⟨placed k A t pl.r0, act A pl.n⟩

theorem push_height {k : ℝ} {A : Mat 3 3 ℝ} (hA : A.transpose * A = 1) (t : V3 ℝ) (pl : Plane ℝ) (q : V3 ℝ) :
    height (push k A t pl) (placed k A t q) = k * height pl q := by
  rw [height, height, ← orth_inner hA (vec3 pl.r0 q) pl.n]
  simp only [push, placed, vec3, inner3, act_eq]
  ring

theorem push_unit {k : ℝ} {A : Mat 3 3 ℝ} (hA : A.transpose * A = 1) (t : V3 ℝ) (pl : Plane ℝ) : UnitNormal (push k A t pl) ↔ UnitNormal pl := by
  have : inner3 (act A pl.n) (act A pl.n) = inner3 pl.n pl.n := orth_inner hA _ _
  constructor
  · intro h
    exact inner_unit (this ▸ unit_sq h)
  · intro h
    exact inner_unit (this.trans (unit_sq h))

theorem push_surj {k : ℝ} (hk : k ≠ 0) {A : Mat 3 3 ℝ} (hA : A.transpose * A = 1) (t : V3 ℝ) (pl' : Plane ℝ) : ∃ pl, push k A t pl = pl' := by
  have hA' : A * A.transpose = 1 := mul_eq_one_comm.mp hA
  refine ⟨⟨act A.transpose (scale3 k⁻¹ (vec3 t pl'.r0)), act A.transpose pl'.n⟩, ?_⟩
  apply Plane.ext
  · simp only [push, placed]
    rw [← act_mul, hA', act_one]
    ext <;> simp only [scale3, vec3] <;> field_simp <;> ring
  · simp only [push]
    rw [← act_mul, hA', act_one]

theorem push_sum {k : ℝ} {A : Mat 3 3 ℝ} (hA : A.transpose * A = 1) (t : V3 ℝ) (pl : Plane ℝ) (ps : List (V3 ℝ)) :
    sqDistSum (push k A t pl) (ps.map (placed k A t)) = k ^ 2 * sqDistSum pl ps := by
  induction ps with
  | nil => simp [sqDistSum]
  | cons p ps ih => rw [List.map_cons, sqDistSum, sqDistSum, ih, push_height hA]; ring

theorem push_best {k : ℝ} (hk : k ≠ 0) {A : Mat 3 3 ℝ} (hA : A.transpose * A = 1) (t : V3 ℝ) (pl : Plane ℝ) (ps : List (V3 ℝ)) :
    BestPlane (push k A t pl) (ps.map (placed k A t)) ↔ BestPlane pl ps := by
  have h2 : 0 < k ^ 2 := by positivity
  constructor
  · rintro ⟨hu, hm⟩
    refine ⟨(push_unit hA t pl).mp hu, fun pl' hu' => ?_⟩
    have := hm (push k A t pl') ((push_unit hA t pl').mpr hu')
    rw [push_sum hA, push_sum hA] at this
    exact le_of_mul_le_mul_left this h2
  · rintro ⟨hu, hm⟩
    refine ⟨(push_unit hA t pl).mpr hu, fun pl' hu' => ?_⟩
    obtain ⟨pl'', rfl⟩ := push_surj hk hA t pl'
    rw [push_sum hA, push_sum hA]
    exact mul_le_mul_of_nonneg_left (hm pl'' ((push_unit hA t pl'').mp hu')) h2.le

theorem placed_surj {k : ℝ} (hk : k ≠ 0) {A : Mat 3 3 ℝ} (hA : A.transpose * A = 1) (t q : V3 ℝ) : ∃ p, placed k A t p = q := by
  obtain ⟨pl, h⟩ := push_surj hk hA t ⟨q, q⟩
  exact ⟨pl.r0, congrArg Plane.r0 h⟩

/-! ### repeating and reordering -/

theorem sum_append (pl : Plane ℝ) (ps qs : List (V3 ℝ)) : sqDistSum pl (ps ++ qs) = sqDistSum pl ps + sqDistSum pl qs := by
  induction ps with
  | nil => simp [sqDistSum]
  | cons p ps ih => rw [List.cons_append, sqDistSum, sqDistSum, ih, add_assoc]

theorem sum_perm (pl : Plane ℝ) {ps qs : List (V3 ℝ)} (h : ps.Perm qs) : sqDistSum pl ps = sqDistSum pl qs := by
  induction h with
  | nil => rfl
  | cons x _ ih => rw [sqDistSum, sqDistSum, ih]
  | swap x y l => simp only [sqDistSum]; ring
  | trans _ _ ih1 ih2 => rw [ih1, ih2]

theorem sum_repeat (pl : Plane ℝ) (m : ℕ) (ps : List (V3 ℝ)) : sqDistSum pl (List.replicate m ps).flatten = m * sqDistSum pl ps := by
  induction m with
  | zero => simp [sqDistSum]
  | succ m ih => rw [List.replicate_succ, List.flatten_cons, sum_append, ih]; push_cast; ring

theorem repeat_best {m : ℕ} (hm : 0 < m) {ps qs : List (V3 ℝ)} (h : (List.replicate m ps).flatten.Perm qs) (pl : Plane ℝ) :
    BestPlane pl qs ↔ BestPlane pl ps := by
  have e : ∀ pl, sqDistSum pl qs = m * sqDistSum pl ps := fun pl => by rw [← sum_perm pl h, sum_repeat]
  have hm' : (0 : ℝ) < m := by exact_mod_cast hm
  simp only [BestPlane, e, mul_le_mul_iff_right₀ hm']

/-! ### points of one plane -/

theorem sum_zero_iff (pl : Plane ℝ) (ps : List (V3 ℝ)) : sqDistSum pl ps ≤ 0 ↔ ∀ p ∈ ps, OnPlane pl p := by
  have nn : ∀ l : List (V3 ℝ), 0 ≤ sqDistSum pl l := by
    intro l
    induction l with
    | nil => exact le_refl _
    | cons p l ih => rw [sqDistSum]; positivity
  induction ps with
  | nil => simp [sqDistSum]
  | cons p ps ih =>
    rw [List.forall_mem_cons, sqDistSum, ← propext ih]
    have h1 := sq_nonneg (height pl p)
    have h2 := nn ps
    constructor
    · intro h
      have h3 : height pl p ^ 2 = 0 := le_antisymm (by linarith) h1
      exact ⟨pow_eq_zero_iff two_ne_zero |>.mp h3, by linarith⟩
    · rintro ⟨h3, h4⟩
      have : height pl p = 0 := h3
      rw [this]; linarith

/-- two planes through three points that are not on a line -/
theorem three {pl pl' : Plane ℝ} (hu : UnitNormal pl) (hu' : UnitNormal pl') {a b c : V3 ℝ} (hx : cross3 (vec3 a b) (vec3 a c) ≠ zero3)
    (h : OnPlane pl a ∧ OnPlane pl b ∧ OnPlane pl c) (h' : OnPlane pl' a ∧ OnPlane pl' b ∧ OnPlane pl' c) : SamePlane pl pl' := by
  obtain ⟨ha, hb, hc⟩ := h
  obtain ⟨ha', hb', hc'⟩ := h'
  change height pl a = 0 at ha
  change height pl b = 0 at hb
  change height pl c = 0 at hc
  change height pl' a = 0 at ha'
  change height pl' b = 0 at hb'
  change height pl' c = 0 at hc'
  refine same_of_normals ha ha' ?_
  rw [height_at ha] at hb hc
  rw [height_at ha'] at hb' hc'
  obtain ⟨e, he⟩ : ∃ e, e = vec3 a b := ⟨_, rfl⟩
  obtain ⟨f, hf⟩ : ∃ f, f = vec3 a c := ⟨_, rfl⟩
  rw [← he] at hb hb' hx
  rw [← hf] at hc hc' hx
  have cp : 0 < inner3 (cross3 e f) (cross3 e f) := by
    rcases (inner_nonneg (cross3 e f)).lt_or_eq with h | h
    · exact h
    · exfalso
      apply hx
      have h0 := h.symm
      simp only [inner3] at h0
      ext <;> simp only [zero3] <;> nlinarith [mul_self_nonneg (cross3 e f).x, mul_self_nonneg (cross3 e f).y, mul_self_nonneg (cross3 e f).z]
  -- a vector at right angles to `e` and `f` goes along their cross product
  have key : ∀ n, inner3 e n = 0 → inner3 f n = 0 → scale3 (inner3 (cross3 e f) (cross3 e f)) n = scale3 (inner3 (cross3 e f) n) (cross3 e f) := by
    intro n h1 h2
    simp only [inner3] at h1 h2
    ext <;> simp only [scale3, inner3, cross3]
    · linear_combination (e.x * (f.x ^ 2 + f.y ^ 2 + f.z ^ 2) - f.x * (e.x * f.x + e.y * f.y + e.z * f.z)) * h1 +
        (f.x * (e.x ^ 2 + e.y ^ 2 + e.z ^ 2) - e.x * (e.x * f.x + e.y * f.y + e.z * f.z)) * h2
    · linear_combination (e.y * (f.x ^ 2 + f.y ^ 2 + f.z ^ 2) - f.y * (e.x * f.x + e.y * f.y + e.z * f.z)) * h1 +
        (f.y * (e.x ^ 2 + e.y ^ 2 + e.z ^ 2) - e.y * (e.x * f.x + e.y * f.y + e.z * f.z)) * h2
    · linear_combination (e.z * (f.x ^ 2 + f.y ^ 2 + f.z ^ 2) - f.z * (e.x * f.x + e.y * f.y + e.z * f.z)) * h1 +
        (f.z * (e.x ^ 2 + e.y ^ 2 + e.z ^ 2) - e.z * (e.x * f.x + e.y * f.y + e.z * f.z)) * h2
  have k1 := key pl.n hb hc
  have k2 := key pl'.n hb' hc'
  have u1 := unit_sq hu
  have u2 := unit_sq hu'
  obtain ⟨x, hxx⟩ : ∃ x, x = cross3 e f := ⟨_, rfl⟩
  rw [← hxx] at k1 k2 cp
  obtain ⟨C, hC⟩ : ∃ C, C = inner3 x x := ⟨_, rfl⟩
  rw [← hC] at k1 k2 cp
  have lin1 : ∀ (s : ℝ) (a b : V3 ℝ), inner3 (scale3 s a) b = s * inner3 a b := by intro s a b; simp only [inner3, scale3]; ring
  have comm : ∀ a b : V3 ℝ, inner3 a b = inner3 b a := by intro a b; simp only [inner3]; ring
  have m1 := congrArg (fun t => inner3 t pl.n) k1
  have m2 := congrArg (fun t => inner3 t pl'.n) k2
  have m3 := congrArg (fun t => inner3 t pl'.n) k1
  simp only [lin1, u1, u2, mul_one] at m1 m2 m3
  refine parallel u2 u1 ?_
  have e1 : C ^ 2 * inner3 pl.n pl'.n ^ 2 = C ^ 2 * 1 := by
    have : C ^ 2 * inner3 pl.n pl'.n ^ 2 = (C * inner3 pl.n pl'.n) ^ 2 := by ring
    rw [this, m3, mul_pow, sq, sq, ← m1, ← m2]; ring
  exact (mul_left_cancel₀ (by positivity) e1).ge

theorem mk_neg {c x : V3 ℝ} {pl : Plane ℝ} (h : Plane.mk' c x = .ok pl) : Plane.mk' c (-x) = .ok ⟨pl.r0, -pl.n⟩ := by
  obtain ⟨h1, h2, -⟩ := C21_construct c x
  obtain ⟨g1, g2, g3⟩ := C21_construct c (-x)
  rcases g3 with ⟨pl', hpl'⟩ | herr
  · obtain ⟨hr, hu, s, hs, hn⟩ := h1 pl h
    obtain ⟨hr', hu', s', hs', hn'⟩ := g1 pl' hpl'
    rw [hpl']
    congr 1
    have f1 : pl.n = scale3 s x := hn
    have f2 : pl'.n = scale3 s' (-x) := hn'
    have i1 := unit_sq hu
    have i2 := unit_sq hu'
    rw [f1] at i1
    rw [f2] at i2
    have j1 : s ^ 2 * inner3 x x = 1 := by rw [← i1]; simp only [inner3, scale3]; ring
    have j2 : s' ^ 2 * inner3 x x = 1 := by rw [← i2]; simp [inner3, scale3]; ring
    have hx : inner3 x x ≠ 0 := by intro h0; rw [h0] at j1; simp at j1
    have ss : s' = s := (pow_left_inj₀ hs'.le hs.le two_ne_zero).mp (mul_right_cancel₀ hx (j2.trans j1.symm))
    apply Plane.ext
    · exact hr'.trans hr.symm
    · rw [f2, f1, ss]; ext <;> simp [scale3]
  · exfalso
    have := g2.mp herr
    simp only [V3.neg_x, V3.neg_y, V3.neg_z, abs_neg] at this
    have := h2.mpr this
    rw [h] at this; cases this

end FY

open FY

/-- **C144.** Every best plane passes through the centroid of the points; and the fitted plane is the only
best one, up to its direction, exactly when one eigenvalue of the covariance is smaller than the two
others. -/
theorem C144_one (ps : List (V3 ℝ)) (hp : 2 ≤ ps.length) (w : Fin 3 → ℝ) (v : Mat 3 3 ℝ) (hE : EigSpec (covMat ps) w v) :
    (∀ pl, BestPlane pl ps → OnPlane pl (centroid ps)) ∧ (OneBest ps ↔ ∃ m, ∀ i, i ≠ m → w m < w i) := by
  refine ⟨fun pl h => ((best_iff hp).mp h).2.1, fun h => ?_, ?_⟩
  · obtain ⟨i, j, k, hij, hjk, hik, h1, h2, d⟩ := order hE
    have hmin : ∀ x, w k ≤ w x := by
      intro x
      have : x = i ∨ x = j ∨ x = k := by omega
      rcases this with rfl | rfl | rfl <;> linarith
    refine ⟨k, fun x hx => ?_⟩
    by_contra hc
    have hjm : ∀ y, w j ≤ w y := by
      intro y
      have : x = i ∨ x = j := by omega
      have : w j ≤ w k := by rcases this with rfl | rfl <;> linarith
      exact this.trans (hmin y)
    have n := normals_of_same (h _ _ (best_col hp hE hmin) (best_col hp hE hjm))
    apply d
    rcases n with n | n <;> simp only at n <;> rw [n] <;> simp [det3, inner3, cross3] <;> ring
  · rintro ⟨m, hm⟩ pl pl' h h'
    have hmin : ∀ x, w m ≤ w x := fun x => by
      by_cases hx : x = m
      · rw [hx]
      · exact (hm x hx).le
    have par : ∀ P, BestPlane P ps → height P (centroid ps) = 0 ∧ (P.n = column v m ∨ P.n = -column v m) := by
      intro P hP
      obtain ⟨a, b, c⟩ := (best_iff hp).mp hP
      refine ⟨b, strict (cov_symm ps) hE hm (unit_sq a) ?_⟩
      have := c _ (col_unit hE m)
      rwa [eig_quad hE m] at this
    obtain ⟨a, b⟩ := par pl h
    obtain ⟨a', b'⟩ := par pl' h'
    refine same_of_normals a a' ?_
    rcases b with b | b <;> rcases b' with b' | b' <;> rw [b, b']
    · exact .inl rfl
    · exact .inr rfl
    · right; ext <;> simp
    · exact .inl rfl

/-- **C144.** Points turned or mirrored, scaled and moved: their best planes are the images of the best planes; where
there is only one, the plane fitted to the moved points is the image of the plane fitted to the points, facing
either way. -/
theorem C144_moved (eig : Mat 3 3 ℝ → PyM ((Fin 3 → ℝ) × Mat 3 3 ℝ)) (argsort : (Fin 3 → ℝ) → List (Fin 3))
    (hs : ∀ w, IsArgsort w (argsort w)) (heig : ∀ A : Mat 3 3 ℝ, A.transpose = A → ∃ w v, eig A = .ok (w, v) ∧ EigSpec A w v)
    (ps : List (V3 ℝ)) (hp : 2 ≤ ps.length) (k : ℝ) (hk : k ≠ 0) (A : Mat 3 3 ℝ) (hA : A.transpose * A = 1) (t : V3 ℝ) :
    (OneBest (ps.map (placed k A t)) ↔ OneBest ps) ∧
    ∀ pl pl', Plane.fitFromPoints eig argsort ps = .ok pl → Plane.fitFromPoints eig argsort (ps.map (placed k A t)) = .ok pl' →
      sqDistSum pl' (ps.map (placed k A t)) = k ^ 2 * sqDistSum pl ps ∧
      pl'.r0 = placed k A t pl.r0 ∧
      (OneBest ps → (∀ q, OnPlane pl' (placed k A t q) ↔ OnPlane pl q) ∧
        ((∀ q, height pl' (placed k A t q) = k * height pl q) ∨ ∀ q, height pl' (placed k A t q) = -(k * height pl q))) := by
  refine ⟨⟨fun h pl pl' hb hb' => ?_, fun h pl pl' hb hb' => ?_⟩, fun pl pl' hf hf' => ?_⟩
  · rcases h _ _ ((push_best hk hA t pl ps).mpr hb) ((push_best hk hA t pl' ps).mpr hb') with e | e
    · left
      intro q
      have := e (placed k A t q)
      rw [push_height hA, push_height hA] at this
      exact mul_left_cancel₀ hk this
    · right
      intro q
      have := e (placed k A t q)
      rw [push_height hA, push_height hA, ← mul_neg] at this
      exact mul_left_cancel₀ hk this
  · obtain ⟨P, rfl⟩ := push_surj hk hA t pl
    obtain ⟨P', rfl⟩ := push_surj hk hA t pl'
    rcases h _ _ ((push_best hk hA t P ps).mp hb) ((push_best hk hA t P' ps).mp hb') with e | e
    · left
      intro q
      obtain ⟨q, rfl⟩ := placed_surj hk hA t q
      rw [push_height hA, push_height hA, e]
    · right
      intro q
      obtain ⟨q, rfl⟩ := placed_surj hk hA t q
      rw [push_height hA, push_height hA, e]; ring
  · obtain ⟨hb, hr⟩ := fit_best hs hp heig hf
    obtain ⟨hb', hr'⟩ := fit_best hs (by simpa using hp) heig hf'
    obtain ⟨P', rfl⟩ := push_surj hk hA t pl'
    have hB := (push_best hk hA t P' ps).mp hb'
    refine ⟨?_, ?_, fun h => ?_⟩
    · rw [push_sum hA, le_antisymm (hB.2 pl hb.1) (hb.2 P' hB.1)]
    · rw [hr', hr]
      have hl : (ps.length : ℝ) ≠ 0 := by
        have : (2 : ℝ) ≤ ps.length := by exact_mod_cast hp
        intro h; linarith
      have : sum3 (ps.map (placed k A t)) = ⟨k * (act A (sum3 ps)).x + ps.length * t.x, k * (act A (sum3 ps)).y + ps.length * t.y,
          k * (act A (sum3 ps)).z + ps.length * t.z⟩ := by
        clear hl hb' hr' hf' hp hb hr hB hf
        induction ps with
        | nil => simp [sum3, act_eq, zero3]
        | cons p ps ih =>
          rw [List.map_cons, sum3, ih]
          ext <;> simp only [sum3, act_eq, placed, List.length_cons] <;> push_cast <;> ring
      simp only [centroid, this, List.length_map, placed, act_scale]
      ext <;> simp only [scale3] <;> field_simp
    · have hS := h _ _ hb hB
      have two : (∀ q, height (push k A t P') (placed k A t q) = k * height pl q) ∨
          ∀ q, height (push k A t P') (placed k A t q) = -(k * height pl q) := by
        rcases hS with e | e
        · exact .inl fun q => by rw [push_height hA, e]
        · exact .inr fun q => by rw [push_height hA, e]; ring
      refine ⟨fun q => ?_, two⟩
      change height _ _ = 0 ↔ height _ _ = 0
      rcases two with e | e <;> rw [e q] <;> simp [hk]

/-- **C144.** The points in another order, each of them as often as the others: where there is only one best plane, the
same plane, facing either way. -/
theorem C144_order (eig : Mat 3 3 ℝ → PyM ((Fin 3 → ℝ) × Mat 3 3 ℝ)) (argsort : (Fin 3 → ℝ) → List (Fin 3))
    (hs : ∀ w, IsArgsort w (argsort w)) (heig : ∀ A : Mat 3 3 ℝ, A.transpose = A → ∃ w v, eig A = .ok (w, v) ∧ EigSpec A w v)
    (ps qs : List (V3 ℝ)) (hp : 2 ≤ ps.length) (m : ℕ) (hm : 0 < m) (h : (List.replicate m ps).flatten.Perm qs) :
    (OneBest qs ↔ OneBest ps) ∧
    ∀ pl pl', Plane.fitFromPoints eig argsort ps = .ok pl → Plane.fitFromPoints eig argsort qs = .ok pl' →
      sqDistSum pl' ps = sqDistSum pl ps ∧ (OneBest ps → SamePlane pl pl') := by
  refine ⟨by simp only [OneBest, repeat_best hm h], fun pl pl' hf hf' => ?_⟩
  have hq : 2 ≤ qs.length := by
    rw [← h.length_eq]
    simp
    nlinarith
  obtain ⟨hb, -⟩ := fit_best hs hp heig hf
  have hb' := (repeat_best hm h pl').mp (fit_best hs hq heig hf').1
  exact ⟨le_antisymm (hb'.2 pl hb.1) (hb.2 pl' hb'.1), fun ho => ho _ _ hb hb'⟩

/-- **C144.** Points of one plane, not all on one line: there is one best plane, and the plane fitted is the plane
they lie in; in particular for three points the plane of `from_points`. -/
theorem C144_planar (eig : Mat 3 3 ℝ → PyM ((Fin 3 → ℝ) × Mat 3 3 ℝ)) (argsort : (Fin 3 → ℝ) → List (Fin 3))
    (hs : ∀ w, IsArgsort w (argsort w)) (heig : ∀ A : Mat 3 3 ℝ, A.transpose = A → ∃ w v, eig A = .ok (w, v) ∧ EigSpec A w v) :
    (∀ (ps : List (V3 ℝ)) (pl0 : Plane ℝ) (a b c : V3 ℝ), UnitNormal pl0 → (∀ p ∈ ps, OnPlane pl0 p) → a ∈ ps → b ∈ ps → c ∈ ps →
      cross3 (vec3 a b) (vec3 a c) ≠ zero3 →
        OneBest ps ∧ ∀ pl, Plane.fitFromPoints eig argsort ps = .ok pl → SamePlane pl0 pl) ∧
    ∀ (a b c : V3 ℝ) (pl0 pl : Plane ℝ), Plane.fromPoints a b c = .ok pl0 → Plane.fitFromPoints eig argsort [a, b, c] = .ok pl → SamePlane pl0 pl := by
  have one : ∀ (ps : List (V3 ℝ)) (pl0 : Plane ℝ) (a b c : V3 ℝ), UnitNormal pl0 → (∀ p ∈ ps, OnPlane pl0 p) → a ∈ ps → b ∈ ps → c ∈ ps →
      cross3 (vec3 a b) (vec3 a c) ≠ zero3 →
        OneBest ps ∧ ∀ pl, Plane.fitFromPoints eig argsort ps = .ok pl → SamePlane pl0 pl := by
    intro ps pl0 a b c hu hon ha hb hc hx
    have on : ∀ P, BestPlane P ps → ∀ p ∈ ps, OnPlane P p := fun P hP =>
      (sum_zero_iff P ps).mp ((hP.2 pl0 hu).trans ((sum_zero_iff pl0 ps).mpr hon))
    have hp : 2 ≤ ps.length := by
      by_contra h
      have : ps.length = 0 ∨ ps.length = 1 := by omega
      rcases this with h | h
      · rw [List.length_eq_zero_iff] at h; subst h; simp at ha
      · obtain ⟨x, rfl⟩ := List.length_eq_one_iff.mp h
        simp only [List.mem_singleton] at ha hb hc
        subst ha hb hc
        apply hx
        simp [vec3, cross3, zero3]
    refine ⟨fun pl pl' h h' => three h.1 h'.1 hx ⟨on _ h a ha, on _ h b hb, on _ h c hc⟩ ⟨on _ h' a ha, on _ h' b hb, on _ h' c hc⟩, fun pl h => ?_⟩
    have hB := (fit_best hs hp heig h).1
    exact three hu hB.1 hx ⟨hon a ha, hon b hb, hon c hc⟩ ⟨on _ hB a ha, on _ hB b hb, on _ hB c hc⟩
  refine ⟨one, fun a b c pl0 pl h0 h => ?_⟩
  obtain ⟨hu, h1, h2, h3, hd⟩ := (C21_from_points a b c).1 pl0 h0
  refine (one [a, b, c] pl0 a b c hu ?_ (by simp) (by simp) (by simp) ?_).2 pl h
  · intro p hp
    simp only [List.mem_cons, List.not_mem_nil, or_false] at hp
    rcases hp with rfl | rfl | rfl <;> assumption
  · intro hz
    have e : det3 (vec3 a b) (vec3 a c) pl0.normal = inner3 (cross3 (vec3 a b) (vec3 a c)) pl0.normal := by
      simp only [det3, inner3, cross3]
    rw [e, hz] at hd
    simp [inner3, zero3] at hd

/-- **C144.** The direction of the normal is not determined: for every correct routine for eigenvectors there is another
correct one with which every plane fitted faces the other way. -/
theorem C144_direction (eig : Mat 3 3 ℝ → PyM ((Fin 3 → ℝ) × Mat 3 3 ℝ)) (argsort : (Fin 3 → ℝ) → List (Fin 3))
    (hs : ∀ w, IsArgsort w (argsort w)) (heig : ∀ A : Mat 3 3 ℝ, A.transpose = A → ∃ w v, eig A = .ok (w, v) ∧ EigSpec A w v) :
    ∃ eig' : Mat 3 3 ℝ → PyM ((Fin 3 → ℝ) × Mat 3 3 ℝ), (∀ A : Mat 3 3 ℝ, A.transpose = A → ∃ w v, eig' A = .ok (w, v) ∧ EigSpec A w v) ∧
      ∀ ps, 2 ≤ ps.length → ∀ pl, Plane.fitFromPoints eig argsort ps = .ok pl → Plane.fitFromPoints eig' argsort ps = .ok ⟨pl.r0, -pl.n⟩ := by
  obtain ⟨fl, hfl⟩ : ∃ fl : Fin 3 → Mat 3 3 ℝ → Mat 3 3 ℝ, fl = fun i v r c => if c = i then -v r c else v r c := ⟨_, rfl⟩
  have col : ∀ i v j, column (fl i v) j = if j = i then -column v j else column v j := by
    intro i v j
    subst hfl
    by_cases h : j = i
    · simp only [column, h, if_true]; rfl
    · simp only [column, h, if_false]
  have spec : ∀ i A w v, EigSpec A w v → EigSpec A w (fl i v) := by
    intro i A w v hE
    refine ⟨fun j => ?_, fun j => ?_, ?_⟩
    · rw [col]
      split
      · have e : -column v j = scale3 (-1) (column v j) := by ext <;> simp [scale3]
        rw [e, act_scale, hE.eigen j]
        ext <;> simp [scale3]
      · exact hE.eigen j
    · rw [col]
      split
      · apply inner_unit
        rw [← col_unit hE j]; simp [inner3]
      · exact hE.unit j
    · have hd := hE.independent
      rw [Matrix.det_fin_three] at hd ⊢
      subst hfl
      intro h0
      apply hd
      fin_cases i <;> simp at h0 <;> linarith
  refine ⟨fun A => match eig A with | .ok (w, v) => .ok (w, fl ((argsort w).getLastD 0) v) | .error e => .error e, ?_, ?_⟩
  · intro A hA
    obtain ⟨w, v, he, hE⟩ := heig A hA
    exact ⟨w, fl ((argsort w).getLastD 0) v, by simp only [he], spec _ _ _ _ hE⟩
  · intro ps hp pl h
    obtain ⟨w, v, he, hE⟩ := heig _ (cov_symm ps)
    obtain ⟨i, j, k, hl, -, -, hd⟩ := argsort_three (hs w)
    have hij : j ≠ i := by
      rintro rfl
      apply hd v hE.independent
      simp only [det3, inner3, cross3]; ring
    rw [call hp he hl] at h
    rw [call hp (w := w) (v := fl i v) (by simp only [he, hl]; rfl) hl, col, col, if_pos rfl, if_neg hij]
    have e : cross3 (-column v i) (column v j) = -cross3 (column v i) (column v j) := by
      ext <;> simp [cross3] <;> ring
    rw [e]
    exact mk_neg h

/-- non-vacuity: six points at different distances along the axes have one best plane, which does not contain them, and are fitted
also after a mirroring; at equal distances they have more than one -/
theorem C144_witness :
    ∃ (eig : Mat 3 3 ℝ → PyM ((Fin 3 → ℝ) × Mat 3 3 ℝ)) (argsort : (Fin 3 → ℝ) → List (Fin 3)) (A : Mat 3 3 ℝ),
      (∀ w, IsArgsort w (argsort w)) ∧ (∀ A : Mat 3 3 ℝ, A.transpose = A → ∃ w v, eig A = .ok (w, v) ∧ EigSpec A w v) ∧
      A.transpose * A = 1 ∧ A.det = -1 ∧
      OneBest [⟨3, 0, 0⟩, ⟨-3, 0, 0⟩, ⟨0, 2, 0⟩, ⟨0, -2, 0⟩, ⟨0, 0, 1⟩, ⟨0, 0, -1⟩] ∧
      (∃ pl pl', Plane.fitFromPoints eig argsort [⟨3, 0, 0⟩, ⟨-3, 0, 0⟩, ⟨0, 2, 0⟩, ⟨0, -2, 0⟩, ⟨0, 0, 1⟩, ⟨0, 0, -1⟩] = .ok pl ∧
        Plane.fitFromPoints eig argsort
          ([⟨3, 0, 0⟩, ⟨-3, 0, 0⟩, ⟨0, 2, 0⟩, ⟨0, -2, 0⟩, ⟨0, 0, 1⟩, ⟨0, 0, -1⟩].map (placed 2 A ⟨1, 1, 1⟩)) = .ok pl' ∧
        ¬OnPlane pl ⟨0, 0, 1⟩) ∧
      ¬OneBest [⟨1, 0, 0⟩, ⟨-1, 0, 0⟩, ⟨0, 1, 0⟩, ⟨0, -1, 0⟩, ⟨0, 0, 1⟩, ⟨0, 0, -1⟩] := by
  obtain ⟨eig, argsort, hs, heig, hok⟩ := C32_satisfiable
  have spec : ∀ a b c : ℝ, EigSpec (covMat [⟨a, 0, 0⟩, ⟨-a, 0, 0⟩, ⟨0, b, 0⟩, ⟨0, -b, 0⟩, ⟨0, 0, c⟩, ⟨0, 0, -c⟩])
      ![2 / 5 * a ^ 2, 2 / 5 * b ^ 2, 2 / 5 * c ^ 2] 1 := by
    intro a b c
    refine ⟨fun i => ?_, fun i => ?_, by simp⟩
    · rw [act_eq]
      have : i = 0 ∨ i = 1 ∨ i = 2 := by omega
      rcases this with rfl | rfl | rfl <;> ext <;> simp [covMat, meanPts_real, centroid, sum3, zero3, sumOver, column, scale3] <;> ring
    · apply inner_unit
      have : i = 0 ∨ i = 1 ∨ i = 2 := by omega
      rcases this with rfl | rfl | rfl <;> simp [column, inner3]
  have o1 : OneBest [⟨3, 0, 0⟩, ⟨-3, 0, 0⟩, ⟨0, 2, 0⟩, ⟨0, -2, 0⟩, ⟨0, 0, 1⟩, ⟨0, 0, -1⟩] := by
    refine ((C144_one _ (by simp) _ _ (spec 3 2 1)).2).mpr ⟨2, fun i hi => ?_⟩
    have : i = 0 ∨ i = 1 ∨ i = 2 := by omega
    rcases this with rfl | rfl | rfl
    · simp <;> norm_num
    · simp <;> norm_num
    · simp at hi
  refine ⟨eig, argsort, !![1, 0, 0; 0, 1, 0; 0, 0, -1], hs, heig, ?_, ?_, o1, ?_, ?_⟩
  · ext i j
    fin_cases i <;> fin_cases j <;> simp [Matrix.mul_apply, Fin.sum_univ_three]
  · simp [Matrix.det_fin_three]
  · obtain ⟨pl, h⟩ := hok [⟨3, 0, 0⟩, ⟨-3, 0, 0⟩, ⟨0, 2, 0⟩, ⟨0, -2, 0⟩, ⟨0, 0, 1⟩, ⟨0, 0, -1⟩] (by simp)
    obtain ⟨pl', h'⟩ := hok ([⟨3, 0, 0⟩, ⟨-3, 0, 0⟩, ⟨0, 2, 0⟩, ⟨0, -2, 0⟩, ⟨0, 0, 1⟩, ⟨0, 0, -1⟩].map
      (placed 2 !![1, 0, 0; 0, 1, 0; 0, 0, -1] ⟨1, 1, 1⟩)) (by simp)
    refine ⟨pl, pl', h, h', fun hon => ?_⟩
    have hb := (fit_best hs (by simp) heig h).1
    have hc := best_col (by simp) (spec 3 2 1) (m := 2) (by
      intro i
      fin_cases i <;> simp <;> norm_num)
    have : height pl ⟨0, 0, 1⟩ = 0 := hon
    rcases o1 _ _ hc hb with e | e <;> rw [e] at this <;>
      simp [height, vec3, inner3, column, centroid, sum3, scale3, zero3] at this
  · intro ho
    obtain ⟨m, hm⟩ := ((C144_one _ (by simp) _ _ (spec 1 1 1)).2).mp ho
    fin_cases m
    · simpa using hm 1 (by simp)
    · simpa using hm 0 (by simp)
    · simpa using hm 0 (by simp)

end Blmath.Props
