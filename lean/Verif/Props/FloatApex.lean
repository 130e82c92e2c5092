import Verif.Props.FloatUpLook
import Verif.Props.Apex

/-!
Property C112: `apex` and `farthest` in rounded arithmetic.
-/

namespace Blmath.Props
open Blmath Blmath.Spec Blmath.Vx Blmath.Geometry Blmath.Proofs
variable {rnd : ℝ → ℝ} {u : ℝ}

namespace FA
open FN UL

theorem isnan_rd (x : Rd rnd) : npIsNan x = false := by
  have : Num.eq x x = true := (Rd.eq_iff x x).mpr rfl
  simp [npIsNan, this]

theorem argmaxFrom_rd (xs : List (Rd rnd)) : ∀ (i best : ℕ) (b : Rd rnd),
    argmaxFrom i best b xs = argmaxFrom i best b.val (xs.map Rd.val) := by
  induction xs with
  | nil => intros; rfl
  | cons x xs ih =>
    intro i best b
    simp only [argmaxFrom, List.map_cons, isnan_rd, npIsNan_real, Bool.false_or, Bool.false_eq_true, if_false]
    by_cases h : b.val < x.val
    · rw [if_pos ((Rd.lt_iff _ _).mpr h), if_pos ((Num.lt_real _ _).mpr h)]
      exact ih _ _ _
    · rw [if_neg (fun c => h ((Rd.lt_iff _ _).mp c)), if_neg (fun c => h ((Num.lt_real _ _).mp c))]
      exact ih _ _ _

theorem argmax_rd (xs : List (Rd rnd)) : argmax xs = argmax (xs.map Rd.val) := by
  cases xs with
  | nil => rfl
  | cons x xs => simp only [argmax, List.map_cons, argmaxFrom_rd]

/-- `apex` takes the first largest of the computed coordinates -/
theorem apex_rd (points : List (V3 (Rd rnd))) (axis : V3 (Rd rnd)) (h : points ≠ []) :
    ∃ i p, apex points axis = .ok p ∧ FirstMax (fun q => (V3.dot q axis).val) points i p := by
  obtain ⟨i, p, h1, h2⟩ := argmax_first (fun q : V3 (Rd rnd) => (V3.dot q axis).val) points h
  refine ⟨i, p, ?_, h2⟩
  unfold apex
  simp only [argmax_rd, List.map_map, Function.comp_def, h1, ok_bind]
  exact pyIndex_of_getElem? h2.1

/-- `farthest` takes the first largest of the computed distances -/
theorem farthest_rd (o : V3 (Rd rnd)) (points : List (V3 (Rd rnd))) (h : points ≠ []) :
    ∃ i p, farthest o points = .ok (p, i) ∧ FirstMax (fun q => (V3.norm (q - o)).val) points i p := by
  obtain ⟨i, p, h1, h2⟩ := argmax_first (fun q : V3 (Rd rnd) => (V3.norm (q - o)).val) points h
  refine ⟨i, p, ?_, h2⟩
  unfold farthest
  simp only [argmax_rd, List.map_map, Function.comp_def, h1, ok_bind, pyIndex_of_getElem? h2.1]
  rfl

/-- a strictly increasing function of the same order gives the same first maximum -/
theorem firstMax_congr {P : Type} {f g : P → ℝ} {xs : List P} {i : ℕ} {x : P} (h : ∀ a ∈ xs, ∀ b ∈ xs, f a < f b ↔ g a < g b)
    (hf : FirstMax f xs i x) : FirstMax g xs i x := by
  obtain ⟨h1, h2, h3⟩ := hf
  have hx := List.mem_of_getElem? h1
  exact ⟨h1, fun y hy => not_lt.mp fun c => absurd ((h x hx y hy).mpr c) (not_lt.mpr (h2 y hy)),
    fun j y hj hy => (h y (List.mem_of_getElem? hy) x hx).mp (h3 j y hj hy)⟩

theorem dist_near (h : Rounding rnd u) (o q : V3 (Rd rnd)) : ∃ t, Near u 4 t ∧ (V3.norm (q - o)).val = dist3 (Rd.vec o) (Rd.vec q) * t := by
  obtain ⟨t, ht, e⟩ := norm_rd h (q - o)
  obtain ⟨t1, h1, e1⟩ := h.factor (q.x.val - o.x.val)
  obtain ⟨t2, h2, e2⟩ := h.factor (q.y.val - o.y.val)
  obtain ⟨t3, h3, e3⟩ := h.factor (q.z.val - o.z.val)
  obtain ⟨s, hs, es⟩ := len_near (a := q.x.val - o.x.val) (b := q.y.val - o.y.val) (c := q.z.val - o.z.val) h h1 h2 h3
  refine ⟨s * t, hs.mul h.lt_one ht, ?_⟩
  have el : len3 (Rd.vec (q - o)) = dist3 (Rd.vec o) (Rd.vec q) * s := by
    have : len3 (Rd.vec (q - o)) = Real.sqrt ((rnd (q.x.val - o.x.val)) ^ 2 + (rnd (q.y.val - o.y.val)) ^ 2 + (rnd (q.z.val - o.z.val)) ^ 2) := rfl
    rw [this, e1, e2, e3, es]
    rfl
  rw [e, el]
  ring

theorem firstMax_map {P Q : Type} {f : Q → ℝ} {g : P → Q} {xs : List P} {i : ℕ} {y : Q} (h : FirstMax f (xs.map g) i y) :
    ∃ x, y = g x ∧ FirstMax (fun a => f (g a)) xs i x := by
  obtain ⟨h1, h2, h3⟩ := h
  rw [List.getElem?_map] at h1
  obtain ⟨x, hx, rfl⟩ := Option.map_eq_some_iff.mp h1
  exact ⟨x, rfl, hx, fun a ha => h2 _ (List.mem_map_of_mem ha), fun j a hj ha => h3 j _ hj (by rw [List.getElem?_map, ha]; rfl)⟩

/-- the inner product of integer vectors -/
def idot (a b : V3 ℤ) : ℤ := a.x * b.x + a.y * b.y + a.z * b.z

theorem idot_bound {a b : V3 ℤ} {c : ℤ} (ha : LI.Within c a) (hb : LI.Within c b) : |idot a b| ≤ 3 * (c * c) := by
  have h1 := LI.mul_bound ha.1 hb.1
  have h2 := LI.mul_bound ha.2.1 hb.2.1
  have h3 := LI.mul_bound ha.2.2 hb.2.2
  unfold idot
  generalize a.x * b.x = p at *
  generalize a.y * b.y = q at *
  generalize a.z * b.z = r at *
  generalize c * c = d at *
  rw [abs_le] at *
  constructor <;> omega

theorem dot_int {a b : V3 ℤ} (ha : LI.Within (2 ^ 25) a) (hb : LI.Within (2 ^ 25) b) :
    (V3.dot (LI.iv a) (LI.iv b)).val = (idot a b : ℝ) := by
  have h1 := LI.mul_bound ha.1 hb.1
  have h2 := LI.mul_bound ha.2.1 hb.2.1
  have h3 := LI.mul_bound ha.2.2 hb.2.2
  have r1 := LI.rnd_int (h1.trans (by norm_num))
  have r2 := LI.rnd_int (h2.trans (by norm_num))
  have r3 := LI.rnd_int (h3.trans (by norm_num))
  have r4 := LI.rnd_int (n := a.x * b.x + a.y * b.y) (by
    generalize a.x * b.x = p at *
    generalize a.y * b.y = q at *
    rw [abs_le] at *
    constructor <;> omega)
  have r5 := LI.rnd_int (n := idot a b) ((idot_bound ha hb).trans (by norm_num))
  unfold idot at *
  push_cast at r1 r2 r3 r4 r5 ⊢
  show rnd53 (rnd53 (rnd53 ((a.x : ℝ) * b.x) + rnd53 ((a.y : ℝ) * b.y)) + rnd53 ((a.z : ℝ) * b.z)) = _
  rw [r1, r2, r3, r4, r5]

/-- rounded square roots of different integers up to `2^50` differ -/
theorem sqrt_lt {a b : ℤ} (ha : 0 ≤ a) (hb : b ≤ 2 ^ 50) (h : a < b) : rnd53 (Real.sqrt a) < rnd53 (Real.sqrt b) := by
  have ha' : (0 : ℝ) ≤ a := by exact_mod_cast ha
  have hb' : (b : ℝ) ≤ 2 ^ 50 := by exact_mod_cast hb
  have h1 : (a : ℝ) + 1 ≤ b := by exact_mod_cast h
  have sa := Real.sq_sqrt ha'
  have sb := Real.sq_sqrt (ha'.trans (by linarith : (a : ℝ) ≤ b))
  have pa := Real.sqrt_nonneg (a : ℝ)
  have pb : 0 < Real.sqrt (b : ℝ) := Real.sqrt_pos.mpr (by linarith)
  have hab : Real.sqrt (a : ℝ) ≤ Real.sqrt b := Real.sqrt_le_sqrt (by linarith)
  have ea := rounding_rnd53.err (Real.sqrt a)
  have eb := rounding_rnd53.err (Real.sqrt b)
  rw [abs_of_nonneg pa] at ea
  rw [abs_of_nonneg pb.le] at eb
  have ea' := (abs_le.mp ea).2
  have eb' := (abs_le.mp eb).1
  generalize Real.sqrt (a : ℝ) = x at *
  generalize Real.sqrt (b : ℝ) = y at *
  have k1 : 1 ≤ (y - x) * (2 * y) := by nlinarith
  have k2 : 2 * (1 / 2 ^ 53 * y) * (2 * y) < 1 := by
    have : y * y ≤ 2 ^ 50 := by nlinarith
    norm_num at this ⊢
    nlinarith
  have k3 : 2 * (1 / 2 ^ 53 * y) < y - x := by
    by_contra c
    have := mul_le_mul_of_nonneg_right (not_lt.mp c) (by positivity : 0 ≤ 2 * y)
    linarith
  have k4 : 1 / 2 ^ 53 * x ≤ 1 / 2 ^ 53 * y := mul_le_mul_of_nonneg_left hab (by positivity)
  linarith

theorem sqrt_lt_iff {a b : ℤ} (ha : 0 ≤ a) (hb : 0 ≤ b) (ha' : a ≤ 2 ^ 50) (hb' : b ≤ 2 ^ 50) :
    rnd53 (Real.sqrt a) < rnd53 (Real.sqrt b) ↔ Real.sqrt a < Real.sqrt b := by
  have e : Real.sqrt a < Real.sqrt b ↔ a < b := by
    rw [Real.sqrt_lt_sqrt_iff (by exact_mod_cast ha)]
    exact_mod_cast Iff.rfl
  rw [e]
  refine ⟨fun h => ?_, sqrt_lt ha hb'⟩
  by_contra c
  rcases (not_lt.mp c).eq_or_lt with rfl | c
  · exact lt_irrefl _ h
  · exact lt_asymm h (sqrt_lt hb ha' c)

theorem argmaxFrom_up (xs : List QD) : ∀ (i best : ℕ) (b : QD),
    argmaxFrom i best b.toRd (xs.map QD.toRd) = argmaxFrom i best b xs := by
  induction xs with
  | nil => intros; rfl
  | cons x xs ih =>
    intro i best b
    simp only [argmaxFrom, List.map_cons, npIsNan, QD.toRd_eq, QD.toRd_lt, ih]
    rfl

theorem argmax_up (xs : List QD) : argmax (xs.map QD.toRd) = argmax xs := by
  cases xs with
  | nil => rfl
  | cons x xs => simp only [argmax, List.map_cons, argmaxFrom_up]

end FA
open FN UL FA

/-- **C112.** In any rounded arithmetic `apex` returns one of the points, and none lies farther along the axis by more than
`gam u 3` of the lengths of the two points and the axis. -/
theorem C112_apex (h : Rounding rnd u) (hu : 3 * u < 1) (points : List (V3 (Rd rnd))) (axis : V3 (Rd rnd)) (hp : points ≠ []) :
    ∃ p ∈ points, apex points axis = .ok p ∧ ∀ q ∈ points,
      inner3 (Rd.vec q) (Rd.vec axis) ≤ inner3 (Rd.vec p) (Rd.vec axis) +
        gam u 3 * ((len3 (Rd.vec p) + len3 (Rd.vec q)) * len3 (Rd.vec axis)) := by
  obtain ⟨i, p, h1, h2, h3, -⟩ := apex_rd points axis hp
  refine ⟨p, List.mem_of_getElem? h2, h1, fun q hq => ?_⟩
  have dp := (abs_le.mp (dot_dist h hu p axis)).2
  have dq := (abs_le.mp (dot_dist h hu q axis)).1
  have := h3 q hq
  simp only at this
  linarith

/-- **C112.** `farthest` returns one of the points and its index; the distance of any other is larger by at most a factor of `1 + gam u 8`. -/
theorem C112_farthest (h : Rounding rnd u) (hu : 8 * u < 1) (o : V3 (Rd rnd)) (points : List (V3 (Rd rnd))) (hp : points ≠ []) :
    ∃ i p, farthest o points = .ok (p, i) ∧ points[i]? = some p ∧
      ∀ q ∈ points, dist3 (Rd.vec o) (Rd.vec q) ≤ (1 + gam u 8) * dist3 (Rd.vec o) (Rd.vec p) := by
  obtain ⟨i, p, h1, h2, h3, -⟩ := farthest_rd o points hp
  refine ⟨i, p, h1, h2, fun q hq => ?_⟩
  obtain ⟨t, ht, et⟩ := dist_near h o p
  obtain ⟨s, hs, es⟩ := dist_near h o q
  have := h3 q hq
  simp only at this
  rw [et, es] at this
  have sp := hs.pos h.lt_one
  have hn := (ht.div h.lt_one hs).gam_bound h.nonneg (by push_cast; linarith) h.lt_one
  have hq' : dist3 (Rd.vec o) (Rd.vec q) ≤ dist3 (Rd.vec o) (Rd.vec p) * (t / s) := by
    rw [← mul_div_assoc, le_div_iff₀ sp]; exact this
  have d0 : 0 ≤ dist3 (Rd.vec o) (Rd.vec p) := len3_nonneg _
  have : t / s ≤ 1 + gam u 8 := by linarith [(abs_le.mp hn).2]
  exact hq'.trans ((mul_le_mul_of_nonneg_left this d0).trans_eq (mul_comm _ _))

/-- **C112.** In doubles `apex` is exact, also about which of several extreme points comes first, along a coordinate axis given by a power of two or
its negative. -/
theorem C112_apex_axis (points : List (V3 (Rd rnd53))) (axis : V3 (Rd rnd53)) (hp : points ≠ []) (hd : ∀ p ∈ points, Doubles (Rd.vec p))
    (c : ℝ) (k : ℤ) (hc : c = 2 ^ k ∨ c = -2 ^ k) (ha : Rd.vec axis = ⟨c, 0, 0⟩ ∨ Rd.vec axis = ⟨0, c, 0⟩ ∨ Rd.vec axis = ⟨0, 0, c⟩) :
    ∃ i p, apex points axis = .ok p ∧ FirstMax (fun q => inner3 (Rd.vec q) (Rd.vec axis)) points i p := by
  obtain ⟨i, p, h1, h2⟩ := apex_rd points axis hp
  refine ⟨i, p, h1, firstMax_congr ?_ h2⟩
  have key : ∀ q ∈ points, (V3.dot q axis).val = inner3 (Rd.vec q) (Rd.vec axis) := by
    intro q hq
    obtain ⟨d1, d2, d3⟩ := hd q hq
    have hm : ∀ x : ℝ, rnd53 x = x → rnd53 (x * c) = x * c := by
      intro x hx
      rcases hc with rfl | rfl
      · rw [mul_comm, LI.rnd53_zpow, hx]
      · rw [mul_neg, rnd53_neg, mul_comm, LI.rnd53_zpow, hx]
    have e : (V3.dot q axis).val = rnd53 (rnd53 (rnd53 ((Rd.vec q).x * (Rd.vec axis).x) + rnd53 ((Rd.vec q).y * (Rd.vec axis).y)) +
      rnd53 ((Rd.vec q).z * (Rd.vec axis).z)) := rfl
    rw [e]
    rcases ha with e' | e' | e' <;> rw [e'] <;> simp only [inner3, mul_zero, rnd53_zero, add_zero, zero_add] <;>
      simp only [hm _ d1, hm _ d2, hm _ d3]
  intro a ha' b hb
  simp only [key a ha', key b hb]

/-- **C112.** In doubles `apex` is exact for points and axes with integer coordinates up to `2^25`. -/
theorem C112_apex_integers (points : List (V3 ℤ)) (axis : V3 ℤ) (hp : points ≠ []) (hd : ∀ p ∈ points, LI.Within (2 ^ 25) p)
    (ha : LI.Within (2 ^ 25) axis) :
    ∃ i p, apex (points.map LI.iv) (LI.iv axis) = .ok (LI.iv p) ∧ FirstMax (fun q => inner3 (LI.rv q) (LI.rv axis)) points i p := by
  obtain ⟨i, p, h1, h2⟩ := apex_rd (points.map LI.iv) (LI.iv axis) (by simpa using hp)
  obtain ⟨q, rfl, h3⟩ := firstMax_map h2
  refine ⟨i, q, h1, firstMax_congr ?_ h3⟩
  have e : ∀ a : V3 ℤ, inner3 (LI.rv a) (LI.rv axis) = (idot a axis : ℝ) := by
    intro a; simp only [inner3, LI.rv, idot]; push_cast; rfl
  intro a ha' b hb
  simp only [dot_int (hd a ha') ha, dot_int (hd b hb) ha, e]

/-- **C112.** In doubles `farthest` is exact for integer coordinates up to `2^23`, although different distances are rounded. -/
theorem C112_farthest_integers (o : V3 ℤ) (points : List (V3 ℤ)) (hp : points ≠ []) (hd : ∀ p ∈ points, LI.Within (2 ^ 23) p)
    (ho : LI.Within (2 ^ 23) o) :
    ∃ i p, farthest (LI.iv o) (points.map LI.iv) = .ok (LI.iv p, i) ∧ FirstMax (fun q => dist3 (LI.rv o) (LI.rv q)) points i p := by
  obtain ⟨i, p, h1, h2⟩ := farthest_rd (LI.iv o) (points.map LI.iv) (by simpa using hp)
  obtain ⟨q, rfl, h3⟩ := firstMax_map h2
  refine ⟨i, q, h1, firstMax_congr ?_ h3⟩
  have w24 : ∀ a : V3 ℤ, LI.Within (2 ^ 23) a → LI.SmallPt a := fun a h =>
    ⟨h.1.trans (by norm_num), h.2.1.trans (by norm_num), h.2.2.trans (by norm_num)⟩
  have key : ∀ a ∈ points, 0 ≤ idot (LI.isub a o) (LI.isub a o) ∧ idot (LI.isub a o) (LI.isub a o) ≤ 2 ^ 50 ∧
      (V3.norm (LI.iv a - LI.iv o)).val = rnd53 (Real.sqrt (idot (LI.isub a o) (LI.isub a o) : ℝ)) ∧
      dist3 (LI.rv o) (LI.rv a) = Real.sqrt (idot (LI.isub a o) (LI.isub a o) : ℝ) := by
    intro a ha
    have hw := LI.isub_within (hd a ha) ho
    have hw' : LI.Within (2 ^ 25) (LI.isub a o) := ⟨hw.1.trans (by norm_num), hw.2.1.trans (by norm_num), hw.2.2.trans (by norm_num)⟩
    refine ⟨?_, ?_, ?_, ?_⟩
    · unfold idot
      nlinarith [mul_self_nonneg (LI.isub a o).x, mul_self_nonneg (LI.isub a o).y, mul_self_nonneg (LI.isub a o).z]
    · exact (le_abs_self _).trans ((idot_bound hw hw).trans (by norm_num))
    · rw [LI.iv_sub (w24 a (hd a ha)) (w24 o ho)]
      have : (V3.norm (LI.iv (LI.isub a o))).val = rnd53 (Real.sqrt (V3.dot (LI.iv (LI.isub a o)) (LI.iv (LI.isub a o))).val) := rfl
      rw [this, dot_int hw' hw']
    · unfold dist3 len3
      congr 1
      simp only [vec3, LI.rv, idot, LI.isub]
      push_cast
      ring
  intro a ha b hb
  obtain ⟨a1, a2, a3, a4⟩ := key a ha
  obtain ⟨b1, b2, b3, b4⟩ := key b hb
  simp only [a3, a4, b3, b4]
  exact sqrt_lt_iff a1 b1 a2 b2

/-- **C112.** Beyond that both may return a point that is not extreme. -/
theorem C112_wrong :
    (apex [LI.iv ⟨2 ^ 54, 2, -2 ^ 54⟩, LI.iv ⟨0, 1, 0⟩] (LI.iv ⟨1, 1, 1⟩) = .ok (LI.iv ⟨0, 1, 0⟩) ∧
      inner3 (LI.rv ⟨0, 1, 0⟩) (LI.rv ⟨1, 1, 1⟩) < inner3 (LI.rv ⟨2 ^ 54, 2, -2 ^ 54⟩) (LI.rv ⟨1, 1, 1⟩)) ∧
    (farthest (LI.iv ⟨0, 0, 0⟩) [LI.iv ⟨2 ^ 27, 0, 0⟩, LI.iv ⟨2 ^ 27, 1, 0⟩] = .ok (LI.iv ⟨2 ^ 27, 0, 0⟩, 0) ∧
      dist3 (LI.rv ⟨0, 0, 0⟩) (LI.rv ⟨2 ^ 27, 0, 0⟩) < dist3 (LI.rv ⟨0, 0, 0⟩) (LI.rv ⟨2 ^ 27, 1, 0⟩)) := by
  refine ⟨⟨?_, ?_⟩, ⟨?_, ?_⟩⟩
  · have e : argmax [V3.dot (LI.qv ⟨2 ^ 54, 2, -2 ^ 54⟩) (LI.qv ⟨1, 1, 1⟩), V3.dot (LI.qv ⟨0, 1, 0⟩) (LI.qv ⟨1, 1, 1⟩)] = .ok 1 := by
      decide +kernel
    unfold apex
    rw [← argmax_up] at e
    simp only [List.map_cons, List.map_nil, ← dot_up, LI.up_qv] at e
    simp only [List.map_cons, List.map_nil, e, ok_bind]
    exact pyIndex_of_getElem? rfl
  · norm_num [inner3, LI.rv]
  · have e : argmax [V3.norm (LI.qv ⟨2 ^ 27, 0, 0⟩ - LI.qv ⟨0, 0, 0⟩), V3.norm (LI.qv ⟨2 ^ 27, 1, 0⟩ - LI.qv ⟨0, 0, 0⟩)] = .ok 0 := by
      decide +kernel
    unfold farthest
    rw [← argmax_up] at e
    simp only [List.map_cons, List.map_nil, ← LI.norm_up, ← LI.sub_up, LI.up_qv] at e
    simp only [List.map_cons, List.map_nil, e, ok_bind]
    rw [pyIndex_of_getElem? (i := 0) rfl]
    rfl
  · unfold dist3 len3
    apply Real.sqrt_lt_sqrt
    · positivity
    · norm_num [vec3, LI.rv]

/-- **C112.** The hypotheses are met: the first of two points equally far along the axis, and of two points equally far from another. -/
theorem C112_witness : (∀ p ∈ [(⟨1, 0, 0⟩ : V3 ℤ), ⟨3, 4, 0⟩, ⟨4, 3, 0⟩], LI.Within (2 ^ 23) p) ∧ LI.Within (2 ^ 23) ⟨1, 1, 0⟩ ∧
    apex ([(⟨1, 0, 0⟩ : V3 ℤ), ⟨3, 4, 0⟩, ⟨4, 3, 0⟩].map LI.iv) (LI.iv ⟨1, 1, 0⟩) = .ok (LI.iv ⟨3, 4, 0⟩) ∧
    farthest (LI.iv ⟨1, 1, 0⟩) ([(⟨1, 0, 0⟩ : V3 ℤ), ⟨3, 4, 0⟩, ⟨4, 3, 0⟩].map LI.iv) = .ok (LI.iv ⟨3, 4, 0⟩, 1) ∧
    Doubles (Rd.vec (LI.iv ⟨3, 4, 0⟩)) ∧ Rd.vec (LI.iv ⟨0, 1, 0⟩) = ⟨0, 2 ^ (0 : ℤ), 0⟩ := by
  have hw : ∀ p ∈ [(⟨1, 0, 0⟩ : V3 ℤ), ⟨3, 4, 0⟩, ⟨4, 3, 0⟩], LI.Within (2 ^ 23) p := by
    intro p hp
    simp only [List.mem_cons, List.not_mem_nil, or_false] at hp
    rcases hp with rfl | rfl | rfl <;> norm_num [LI.Within]
  have ho : LI.Within (2 ^ 23) ⟨1, 1, 0⟩ := by norm_num [LI.Within]
  refine ⟨hw, ho, ?_, ?_, ⟨LI.rnd_int (n := 3) (by norm_num), LI.rnd_int (n := 4) (by norm_num), LI.rnd_int (n := 0) (by norm_num)⟩, ?_⟩
  · obtain ⟨i, p, h1, h2, h3, h4⟩ := C112_apex_integers _ ⟨1, 1, 0⟩ (by simp)
      (fun p hp => ⟨(hw p hp).1.trans (by norm_num), (hw p hp).2.1.trans (by norm_num), (hw p hp).2.2.trans (by norm_num)⟩)
      ⟨ho.1.trans (by norm_num), ho.2.1.trans (by norm_num), ho.2.2.trans (by norm_num)⟩
    rw [h1]
    have m := List.mem_of_getElem? h2
    simp only [List.mem_cons, List.not_mem_nil, or_false] at m
    rcases m with rfl | rfl | rfl
    · have := h3 ⟨3, 4, 0⟩ (by simp)
      norm_num [inner3, LI.rv] at this
    · rfl
    · exfalso
      have hi : 1 < i := by
        rcases i with _ | _ | i
        · simp at h2
        · simp at h2
        · omega
      have := h4 1 _ hi rfl
      norm_num [inner3, LI.rv] at this
  · obtain ⟨i, p, h1, h2, h3, h4⟩ := C112_farthest_integers ⟨1, 1, 0⟩ _ (by simp) hw ho
    rw [h1]
    have m := List.mem_of_getElem? h2
    simp only [List.mem_cons, List.not_mem_nil, or_false] at m
    rcases m with rfl | rfl | rfl
    · have := h3 ⟨3, 4, 0⟩ (by simp)
      simp only [dist3, len3, vec3, LI.rv] at this
      rw [Real.sqrt_le_sqrt_iff (by positivity)] at this
      norm_num at this
    · have : i = 1 := by
        rcases i with _ | _ | _ | i
        · simp at h2
        · rfl
        · simp at h2
        · simp at h2
      rw [this]
    · exfalso
      have hi : 1 < i := by
        rcases i with _ | _ | i
        · simp at h2
        · simp at h2
        · omega
      have := h4 1 _ hi rfl
      simp only [dist3, len3, vec3, LI.rv] at this
      rw [Real.sqrt_lt_sqrt_iff (by positivity)] at this
      norm_num at this
  · ext <;> simp [LI.iv]

end Blmath.Props
