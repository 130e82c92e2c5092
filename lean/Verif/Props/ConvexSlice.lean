import Verif.Spec.ConvexMesh
import Verif.Props.Chord
import Verif.Props.Tape

/-!
Property C131: cross-sections of convex meshes are convex.
-/

namespace Blmath.Props
open Blmath.Geometry Blmath.Spec Blmath.Proofs Blmath.TM

namespace CX

theorem pos_left {a b : ℝ} (h : 0 < a * b) (hb : 0 ≤ b) : 0 < a := by
  by_contra hc
  nlinarith

theorem pos_right {a b : ℝ} (h : 0 < a * b) (ha : 0 ≤ a) : 0 < b := pos_left (mul_comm a b ▸ h) ha

theorem corner_of_hasEdge {f : ℕ × ℕ × ℕ} {u v : ℕ} (h : hasEdge f u v = true) : corner f u = true ∧ corner f v = true := by
  simp only [hasEdge, Bool.and_eq_true] at h
  exact ⟨h.1.2, h.2⟩

/-- the point of a crossed edge is between its ends -/
theorem between {pl : Plane ℝ} {m : Mesh ℝ} {e : ℕ × ℕ} {q : V3 ℝ} (he : CrossedEdge pl m e) (hq : CrossPoint pl m e q) :
    ∃ a b t, m.v[e.1]? = some a ∧ m.v[e.2]? = some b ∧ 0 < t ∧ t < 1 ∧ q = along a t (vec3 a b) := by
  obtain ⟨a, b, ha, hb, hpl, t, t0, t1, rfl⟩ := hq
  obtain ⟨-, -, a', b', ha', hb', hab⟩ := he
  rw [ha] at ha'; rw [hb] at hb'
  injection ha' with ha'; injection hb' with hb'
  subst ha' hb'
  rw [onPlane_iff] at hpl
  have hh : height pl (along a t (vec3 a b)) = (1 - t) * height pl a + t * height pl b := by
    simp only [height, along, vec3, inner3]; ring
  rw [hh] at hpl
  refine ⟨a, b, t, ha, hb, lt_of_le_of_ne t0 ?_, lt_of_le_of_ne t1 ?_, rfl⟩
  · rintro rfl
    have : height pl a = 0 := by linarith
    rw [this] at hab; simp at hab
  · rintro rfl
    have : height pl b = 0 := by linarith
    rw [this] at hab; simp at hab

theorem inner_along (w a b : V3 ℝ) (t : ℝ) : inner3 w (along a t (vec3 a b)) = (1 - t) * inner3 w a + t * inner3 w b := by
  simp only [inner3, along, vec3]; ring

/-- the points of the edges of a face are on its plane, those of all other edges are strictly on one side -/
theorem sides {pl : Plane ℝ} {m : Mesh ℝ} {f : ℕ × ℕ × ℕ} {w : V3 ℝ} {k : ℝ}
    (h : ∀ (i : ℕ) p, m.v[i]? = some p → (corner f i = true → inner3 w p = k) ∧ (corner f i = false → inner3 w p < k))
    {e : ℕ × ℕ} {q : V3 ℝ} (he : CrossedEdge pl m e) (hq : CrossPoint pl m e q) :
    (hasEdge f e.1 e.2 = true → inner3 w q = k) ∧ (hasEdge f e.1 e.2 = false → inner3 w q < k) := by
  obtain ⟨a, b, t, ha, hb, t0, t1, rfl⟩ := between he hq
  rw [inner_along]
  constructor
  · intro hf
    obtain ⟨c1, c2⟩ := corner_of_hasEdge hf
    rw [(h _ _ ha).1 c1, (h _ _ hb).1 c2]; ring
  · intro hf
    have hne : decide (e.1 ≠ e.2) = true := by simpa using he.1.ne
    simp only [hasEdge, hne, Bool.true_and, Bool.and_eq_false_iff] at hf
    have le : ∀ (i : ℕ) p, m.v[i]? = some p → inner3 w p ≤ k := by
      intro i p hp
      cases hc : corner f i with
      | true => exact ((h i p hp).1 hc).le
      | false => exact ((h i p hp).2 hc).le
    have la := le _ _ ha
    have lb := le _ _ hb
    rcases hf with hf | hf
    · have := (h _ _ ha).2 hf
      nlinarith
    · have := (h _ _ hb).2 hf
      nlinarith

theorem manifold_of_closed {m : Mesh ℝ} (h : ClosedMesh m) : EdgeManifold m := by
  intro u v
  by_cases hc : ∃ f ∈ m.f, hasEdge f u v = true
  · obtain ⟨f, hf, hc⟩ := hc
    exact (h.1 f hf u v hc).le
  · rw [List.filter_eq_nil_iff.mpr (by simpa using hc)]
    simp

/-- an edge of a closed mesh has a face without a given other edge -/
theorem face_without {m : Mesh ℝ} (hcl : ClosedMesh m) {f : ℕ × ℕ × ℕ} (hf : f ∈ m.f) {e e' : ℕ × ℕ} (hfe : hasEdge f e.1 e.2 = true)
    (hlt : e.1 < e.2) (hlt' : e'.1 < e'.2) (hne : e ≠ e') : ∃ g ∈ m.f, hasEdge g e.1 e.2 = true ∧ hasEdge g e'.1 e'.2 = false := by
  have h2 := hcl.1 f hf _ _ hfe
  obtain ⟨g1, g2, hg⟩ := List.length_eq_two.mp h2
  have m1 : g1 ∈ m.f ∧ hasEdge g1 e.1 e.2 = true := List.mem_filter.mp (hg ▸ List.mem_cons_self)
  have m2 : g2 ∈ m.f ∧ hasEdge g2 e.1 e.2 = true := List.mem_filter.mp (hg ▸ List.mem_cons_of_mem _ List.mem_cons_self)
  have hpw := hcl.2.sublist (List.filter_sublist (p := fun f => hasEdge f e.1 e.2))
  rw [hg] at hpw
  have hns : ¬ SameCorners g1 g2 := by simpa using hpw
  by_contra hno
  push Not at hno
  have k1 := hno g1 m1.1 m1.2
  have k2 := hno g2 m2.1 m2.2
  simp only [ne_eq, Bool.not_eq_false] at k1 k2
  exact hns (sameCorners_of_two_edges g1 g2 e e' hlt hlt' hne m1.2 k1 m2.2 k2)

/-- different crossed edges have different points -/
theorem apart {pl : Plane ℝ} {m : Mesh ℝ} (hcl : ClosedMesh m) (hcv : ConvexMesh m) {e e' : ℕ × ℕ} {q q' : V3 ℝ}
    (he : CrossedEdge pl m e) (he' : CrossedEdge pl m e') (hq : CrossPoint pl m e q) (hq' : CrossPoint pl m e' q') (hne : e ≠ e') :
    q ≠ q' := by
  obtain ⟨f, hf, hfe⟩ := he.2.1
  obtain ⟨g, hg, g1, g2⟩ := face_without hcl hf hfe he.1 he'.1 hne
  obtain ⟨w, k, hw⟩ := hcv g hg
  rintro rfl
  have h1 := (sides hw he hq).1 g1
  have h2 := (sides hw he' hq').2 g2
  linarith

/-- the side of a line of the plane, read off a plane through that line -/
theorem turn_sign {n w x y z : V3 ℝ} {c k : ℝ} (hx : inner3 n x = c) (hy : inner3 n y = c) (hz : inner3 n z = c)
    (wx : inner3 w x = k) (wy : inner3 w y = k) :
    Blmath.TM.turn n x y z * inner3 w (cross3 n (vec3 x y)) = inner3 n n * inner3 (vec3 x y) (vec3 x y) * (inner3 w z - k) := by
  obtain ⟨d, hd⟩ : ∃ d, d = vec3 x y := ⟨_, rfl⟩
  obtain ⟨r, hr⟩ : ∃ r, r = vec3 x z := ⟨_, rfl⟩
  have h1 : inner3 n d = 0 := by rw [hd]; simp only [inner3, vec3] at hx hy ⊢; linarith
  have h2 : inner3 n r = 0 := by rw [hr]; simp only [inner3, vec3] at hx hz ⊢; linarith
  have h3 : inner3 w d = 0 := by rw [hd]; simp only [inner3, vec3] at wx wy ⊢; linarith
  have h4 : inner3 w z - k = inner3 w r := by rw [hr, ← wx]; simp only [inner3, vec3]; ring
  rw [h4]
  unfold Blmath.TM.turn
  rw [← hd, ← hr]
  clear h4 hx hy hz wx wy hd hr
  have key : det3 n d r * inner3 w (cross3 n d) - inner3 n n * inner3 d d * inner3 w r =
      -(inner3 n n * inner3 r d) * inner3 w d + inner3 w (cross3 (cross3 n d) d) * inner3 n r
        - inner3 w (cross3 (cross3 n r) d) * inner3 n d := by
    simp only [det3, inner3, cross3]; ring
  rw [h1, h2, h3] at key
  linarith

theorem inner_of_onPlane {pl : Plane ℝ} {q : V3 ℝ} (h : OnPlane pl q) : inner3 pl.n q = inner3 pl.n pl.r0 := by
  rw [onPlane_iff] at h
  simp only [height, inner3, vec3] at h ⊢
  linarith

theorem inner_self_pos {n : V3 ℝ} (h : n ≠ zero3) : 0 < inner3 n n := by
  rw [← len3_mul_self]; exact mul_pos (len3_pos h) (len3_pos h)

theorem vec_ne {x y : V3 ℝ} (h : x ≠ y) : vec3 x y ≠ zero3 := by
  intro e
  apply h
  have hx := congrArg V3.x e
  have hy := congrArg V3.y e
  have hz := congrArg V3.z e
  simp only [vec3, zero3] at hx hy hz
  ext <;> linarith

/-- all other points are on the same side of the line of a face -/
theorem same_side {pl : Plane ℝ} {m : Mesh ℝ} (hn : pl.n ≠ zero3) (hcl : ClosedMesh m) (hcv : ConvexMesh m)
    {e e' a b : ℕ × ℕ} {x y p q : V3 ℝ} (hl : Linked pl m e e') (hx : CrossPoint pl m e x) (hy : CrossPoint pl m e' y)
    (ha : CrossedEdge pl m a) (hp : CrossPoint pl m a p) (ae : a ≠ e) (ae' : a ≠ e')
    (hb : CrossedEdge pl m b) (hq : CrossPoint pl m b q) (be : b ≠ e) (be' : b ≠ e') :
    0 < Blmath.TM.turn pl.n x y p * Blmath.TM.turn pl.n x y q := by
  obtain ⟨hne, ce, ce', f, hf, fe, fe'⟩ := hl
  obtain ⟨w, k, hw⟩ := hcv f hf
  have on : ∀ {e q}, CrossPoint pl m e q → inner3 pl.n q = inner3 pl.n pl.r0 := by
    rintro e q ⟨_, _, _, _, h, _⟩
    exact inner_of_onPlane h
  have off : ∀ {a p}, CrossedEdge pl m a → CrossPoint pl m a p → a ≠ e → a ≠ e' → inner3 w p < k := by
    intro a p ha hp ae ae'
    refine (sides hw ha hp).2 ?_
    by_contra hc
    rw [Bool.not_eq_false] at hc
    exact ae' (Blmath.CH.third ce ce' ha fe fe' hc hne ae.symm).symm
  have h1 := turn_sign (on hx) (on hy) (on hp) ((sides hw ce hx).1 fe) ((sides hw ce' hy).1 fe')
  have h2 := turn_sign (on hx) (on hy) (on hq) ((sides hw ce hx).1 fe) ((sides hw ce' hy).1 fe')
  have hpos : 0 < inner3 pl.n pl.n * inner3 (vec3 x y) (vec3 x y) :=
    mul_pos (inner_self_pos hn) (inner_self_pos (vec_ne (apart hcl hcv ce ce' hx hy hne)))
  have l1 := mul_neg_of_pos_of_neg hpos (sub_neg.mpr (off ha hp ae ae'))
  have l2 := mul_neg_of_pos_of_neg hpos (sub_neg.mpr (off hb hq be be'))
  rw [← h1] at l1
  rw [← h2] at l2
  generalize inner3 w (cross3 pl.n (vec3 x y)) = G at l1 l2
  have := mul_pos_of_neg_of_neg l1 l2
  have e3 : Blmath.TM.turn pl.n x y p * G * (Blmath.TM.turn pl.n x y q * G) =
      Blmath.TM.turn pl.n x y p * Blmath.TM.turn pl.n x y q * (G * G) := by ring
  rw [e3] at this
  exact pos_left this (mul_self_nonneg G)

/-- one closed polyline, indexed by all natural numbers -/
structure Ring (pl : Plane ℝ) (m : Mesh ℝ) (k : ℕ) (E : ℕ → ℕ × ℕ) (X : ℕ → V3 ℝ) : Prop where
  size : 3 ≤ k
  link : ∀ i, Linked pl m (E i) (E (i + 1))
  point : ∀ i, CrossPoint pl m (E i) (X i)
  inj : ∀ i j, E i = E j → i % k = j % k
  period : X k = X 0

section
variable {pl : Plane ℝ} {m : Mesh ℝ} {k : ℕ} {E : ℕ → ℕ × ℕ} {X : ℕ → V3 ℝ}

theorem Ring.ne (h : Ring pl m k E X) (i : ℕ) {s t : ℕ} (hs : s ≤ t) (h1 : ¬ k ∣ t - s) : E (i + s) ≠ E (i + t) := by
  intro e
  have := h.inj _ _ e
  apply h1
  have h2 : (i + s) ≡ (i + t) [MOD k] := this
  have h3 : s ≡ t [MOD k] := Nat.ModEq.add_left_cancel' i h2
  exact (Nat.modEq_iff_dvd' hs).mp h3

theorem Ring.turns (h : Ring pl m k E X) (hn : pl.n ≠ zero3) (hcl : ClosedMesh m) (hcv : ConvexMesh m) (i : ℕ) :
    0 < Blmath.TM.turn pl.n (X 0) (X 1) (X 2) * Blmath.TM.turn pl.n (X i) (X (i + 1)) (X (i + 2)) := by
  have hk := h.size
  have n1 : ¬ k ∣ 1 := fun hd => by have := Nat.le_of_dvd (by omega) hd; omega
  have n2 : ¬ k ∣ 2 := fun hd => by have := Nat.le_of_dvd (by omega) hd; omega
  have step : ∀ i, 0 < Blmath.TM.turn pl.n (X i) (X (i + 1)) (X (i + 2)) * Blmath.TM.turn pl.n (X (i + 1)) (X (i + 2)) (X (i + 3)) := by
    intro i
    rw [(turning pl.n).cyc (X i)]
    refine same_side hn hcl hcv (h.link (i + 1)) (h.point _) (h.point _) (h.link i).2.1 (h.point i) ?_ ?_ (h.link (i + 3)).2.1
      (h.point (i + 3)) ?_ ?_
    · exact h.ne i (s := 0) (t := 1) (by omega) n1
    · exact h.ne i (s := 0) (t := 2) (by omega) n2
    · exact (h.ne i (s := 1) (t := 3) (by omega) n2).symm
    · exact (h.ne i (s := 2) (t := 3) (by omega) n1).symm
  induction i with
  | zero =>
    have := step 0
    refine mul_self_pos.mpr ?_
    intro e
    simp only [Nat.zero_add] at this
    rw [e] at this; simp at this
  | succ i ih =>
    have := mul_pos ih (step i)
    have e3 : ∀ a b c : ℝ, a * b * (b * c) = a * c * (b * b) := by intros; ring
    rw [e3] at this
    exact pos_left this (mul_self_nonneg _)

/-- every other crossing is on the inner side of every segment -/
theorem Ring.inner (h : Ring pl m k E X) (hn : pl.n ≠ zero3) (hcl : ClosedMesh m) (hcv : ConvexMesh m) (i : ℕ) {a : ℕ × ℕ} {p : V3 ℝ}
    (ha : CrossedEdge pl m a) (hp : CrossPoint pl m a p) (h1 : a ≠ E i) (h2 : a ≠ E (i + 1)) :
    0 < Blmath.TM.turn pl.n (X 0) (X 1) (X 2) * Blmath.TM.turn pl.n (X i) (X (i + 1)) p := by
  have hk := h.size
  have n1 : ¬ k ∣ 1 := fun hd => by have := Nat.le_of_dvd (by omega) hd; omega
  have n2 : ¬ k ∣ 2 := fun hd => by have := Nat.le_of_dvd (by omega) hd; omega
  have l1 := same_side hn hcl hcv (h.link i) (h.point _) (h.point _) (h.link (i + 2)).2.1 (h.point (i + 2))
    (h.ne i (s := 0) (t := 2) (by omega) n2).symm (h.ne i (s := 1) (t := 2) (by omega) n1).symm ha hp h1 h2
  have := mul_pos (h.turns hn hcl hcv i) l1
  have e3 : ∀ a b c : ℝ, a * b * (b * c) = a * c * (b * b) := by intros; ring
  rw [e3] at this
  exact pos_left this (mul_self_nonneg _)

/-- there is no other crossing -/
theorem Ring.all (h : Ring pl m k E X) (hn : pl.n ≠ zero3) (hcl : ClosedMesh m) (hcv : ConvexMesh m) {a b : ℕ × ℕ} {p q : V3 ℝ}
    (hl : Linked pl m a b) (hp : CrossPoint pl m a p) (hq : CrossPoint pl m b q) (ha : ∀ i, a ≠ E i) (hb : ∀ i, b ≠ E i) : False := by
  have hk := h.size
  obtain ⟨S, hS⟩ : ∃ S, S = Blmath.TM.turn pl.n (X 0) (X 1) (X 2) := ⟨_, rfl⟩
  have T : ∀ i, 0 < Blmath.TM.turn pl.n p q (X 0) * Blmath.TM.turn pl.n p q (X i) := fun i =>
    same_side hn hcl hcv hl hp hq (h.link 0).2.1 (h.point 0) (ha 0).symm (hb 0).symm (h.link i).2.1 (h.point i) (ha i).symm (hb i).symm
  have R : ∀ i, 0 < S * Blmath.TM.turn pl.n p (X i) (X (i + 1)) := by
    intro i
    rw [(turning pl.n).cyc p, hS]
    exact h.inner hn hcl hcv i hl.2.1 hp (ha i) (ha (i + 1))
  have main : ∀ j, 0 < S * Blmath.TM.turn pl.n p (X 0) (X (j + 1)) := by
    intro j
    induction j with
    | zero => exact R 0
    | succ j ih =>
      have pk := (turning pl.n).plucker p q (X 0) (X (j + 1)) (X (j + 2))
      have t1 := T (j + 1)
      have t2 := T (j + 2)
      have t0 := T 0
      have r := R (j + 1)
      have : 0 < (Blmath.TM.turn pl.n p q (X 0) * Blmath.TM.turn pl.n p q (X (j + 1))) * (S * Blmath.TM.turn pl.n p (X 0) (X (j + 2))) := by
        have e : (Blmath.TM.turn pl.n p q (X 0) * Blmath.TM.turn pl.n p q (X (j + 1))) * (S * Blmath.TM.turn pl.n p (X 0) (X (j + 2))) =
            (Blmath.TM.turn pl.n p q (X 0) * Blmath.TM.turn pl.n p q (X 0)) * (S * Blmath.TM.turn pl.n p (X (j + 1)) (X (j + 2))) +
            (Blmath.TM.turn pl.n p q (X 0) * Blmath.TM.turn pl.n p q (X (j + 2))) * (S * Blmath.TM.turn pl.n p (X 0) (X (j + 1))) := by
          linear_combination (Blmath.TM.turn pl.n p q (X 0) * S) * pk
        rw [e]
        exact add_pos (mul_pos t0 r) (mul_pos t2 ih)
      exact pos_right this t1.le
  have := main (k - 1)
  rw [show k - 1 + 1 = k by omega, h.period] at this
  have e0 : Blmath.TM.turn pl.n p (X 0) (X 0) = 0 := by
    simp only [Blmath.TM.turn, det3, inner3, cross3, vec3]; ring
  rw [e0, mul_zero] at this
  exact lt_irrefl _ this

end

theorem getD_of {P : Type} {l : List P} {i : ℕ} {a d : P} (h : l[i]? = some a) : l.getD i d = a := by
  rw [List.getD_eq_getElem?_getD, h]; rfl

theorem get_some {P : Type} {l : List P} (d : P) {i : ℕ} (h : i < l.length) : l[i]? = some (l.getD i d) := by
  rw [List.getD_eq_getElem?_getD, List.getElem?_eq_getElem h]; rfl

/-- a closed polyline gives a ring -/
theorem ring_of {pl : Plane ℝ} {m : Mesh ℝ} {es : List (ℕ × ℕ)} {c : Section ℝ} (h : Traces pl m es c) (hnd : es.Nodup)
    (hc : c.closed = true) :
    Ring pl m es.length (fun i => es.getD (i % es.length) (0, 0)) (fun i => c.v.getD (i % es.length) zero3) := by
  have h3 := (h.closing hc).1
  have hlen := h.points.length_eq
  have lt : ∀ i, i % es.length < es.length := fun i => Nat.mod_lt _ (by omega)
  refine ⟨h3, ?_, ?_, ?_, by simp⟩
  · intro i
    refine Blmath.CH.segs_rel (l := es) (closed := true) (R := Linked pl m) h.adjacent (fun _ => h.closing hc)
      (s := (es.getD (i % es.length) (0, 0), es.getD ((i + 1) % es.length) (0, 0))) ?_
    rw [Blmath.CH.mem_closed]
    refine ⟨i % es.length, get_some _ (lt i), ?_⟩
    have : (i % es.length + 1) % es.length = (i + 1) % es.length := by simp
    rw [this]
    exact get_some _ (lt _)
  · intro i
    obtain ⟨-, hz⟩ := List.forall₂_iff_zip.mp h.points
    apply hz
    rw [List.mem_iff_getElem?]
    refine ⟨i % es.length, ?_⟩
    rw [List.getElem?_zip_eq_some]
    exact ⟨get_some _ (lt i), get_some _ (hlen ▸ lt i)⟩
  · intro i j e
    have h1 := get_some (0, 0) (lt i)
    have h2 := get_some (0, 0) (lt j)
    rw [show es.getD (i % es.length) (0, 0) = es.getD (j % es.length) (0, 0) from e, ← h2] at h1
    exact (List.getElem?_inj (lt i) hnd).mp h1

theorem mem_cyclic {P : Type} {l : List P} {e : P × P} (h : e ∈ cyclicPairs l) :
    ∃ i : ℕ, i < l.length ∧ l[i]? = some e.1 ∧ l[(i + 1) % l.length]? = some e.2 := by
  unfold cyclicPairs at h
  obtain ⟨i, hi⟩ := List.mem_iff_getElem?.mp h
  rw [List.getElem?_zip_eq_some] at hi
  have hlt := (List.getElem?_eq_some_iff.mp hi.1).1
  refine ⟨i, hlt, hi.1, ?_⟩
  rw [← List.getElem?_rotate hlt]
  exact hi.2

theorem cyclic_mem {P : Type} {l : List P} {e : P × P} {i : ℕ} (hi : l[i]? = some e.1) (hj : l[(i + 1) % l.length]? = some e.2) :
    e ∈ cyclicPairs l := by
  have hlt := (List.getElem?_eq_some_iff.mp hi).1
  unfold cyclicPairs
  rw [List.mem_iff_getElem?]
  refine ⟨i, ?_⟩
  rw [List.getElem?_zip_eq_some, List.getElem?_rotate hlt]
  exact ⟨hi, hj⟩

/-- the polyline is convex -/
theorem loop_of {pl : Plane ℝ} {m : Mesh ℝ} {es : List (ℕ × ℕ)} {c : Section ℝ} (hn : pl.n ≠ zero3) (hcl : ClosedMesh m)
    (hcv : ConvexMesh m) (h : Traces pl m es c) (hnd : es.Nodup) (hc : c.closed = true) : ConvexLoop pl.n c.v := by
  have hr := ring_of h hnd hc
  have hlen := h.points.length_eq
  have h3 := hr.size
  have key : ∀ e ∈ cyclicPairs c.v, ∀ p ∈ c.v, p ≠ e.1 → p ≠ e.2 →
      0 < Blmath.TM.turn pl.n (c.v.getD (0 % es.length) zero3) (c.v.getD (1 % es.length) zero3) (c.v.getD (2 % es.length) zero3) *
        det3 pl.n (vec3 e.1 e.2) (vec3 e.1 p) := by
    intro e he p hp n1 n2
    obtain ⟨i, hi, e1, e2⟩ := mem_cyclic he
    obtain ⟨j, hj⟩ := List.mem_iff_getElem?.mp hp
    have hjl := (List.getElem?_eq_some_iff.mp hj).1
    have v1 : c.v.getD (i % es.length) zero3 = e.1 := by
      rw [Nat.mod_eq_of_lt (by omega)]; exact getD_of e1
    have v2 : c.v.getD ((i + 1) % es.length) zero3 = e.2 := by
      rw [hlen]; exact getD_of e2
    have v3 : c.v.getD (j % es.length) zero3 = p := by
      rw [Nat.mod_eq_of_lt (by omega)]; exact getD_of hj
    have := hr.inner hn hcl hcv i (hr.link j).2.1 (hr.point j) ?_ ?_
    · simp only [v1, v2, v3] at this
      exact this
    · intro e
      apply n1
      have := hr.inj j i e
      rw [← v3, ← v1, this]
    · intro e
      apply n2
      have := hr.inj j (i + 1) e
      rw [← v3, ← v2, this]
  have hnod : c.v.Nodup := by
    rw [List.nodup_iff_getElem?_ne_getElem?]
    intro i j hij hj e
    have ni : i % es.length = i := Nat.mod_eq_of_lt (by omega)
    have nj : j % es.length = j := Nat.mod_eq_of_lt (by omega)
    refine apart hcl hcv (hr.link i).2.1 (hr.link j).2.1 (hr.point i) (hr.point j) ?_ ?_
    · intro e
      have := hr.inj i j e
      omega
    · simp only [ni, nj]
      rw [List.getD_eq_getElem?_getD, List.getD_eq_getElem?_getD, e]
  have h3' : 3 ≤ c.v.length := by omega
  rcases lt_trichotomy (Blmath.TM.turn pl.n (c.v.getD (0 % es.length) zero3) (c.v.getD (1 % es.length) zero3)
    (c.v.getD (2 % es.length) zero3)) 0 with hs | hs | hs
  · refine .inr ⟨h3', hnod, fun e he p hp n1 n2 => ?_⟩
    have := neg_of_mul_pos_right (key e he p hp n1 n2) hs.le
    have e2 := TM.turn_neg pl.n e.1 e.2 p
    unfold Blmath.TM.turn at e2
    rw [e2]
    linarith
  · have := hr.turns hn hcl hcv 0
    simp only [hs] at this
    simp at this
  · exact .inl ⟨h3', hnod, fun e he p hp n1 n2 => pos_right (key e he p hp n1 n2) hs.le⟩

/-- the section of a closed convex mesh, with the edges it goes through -/
theorem whole (ver : PyVer) (pk : ℕ → Picker) (ko : ℕ → KeyOrder) (pl : Plane ℝ) (m : Mesh ℝ)
    (hn : pl.n ≠ zero3) (hv : ValidFaces m) (hp : ∀ f ∈ m.f, ProperFace f) (hoff : ∀ p ∈ m.v, ¬ OnPlane pl p)
    (hcl : ClosedMesh m) (hcv : ConvexMesh m) :
    ((∀ e, ¬ CrossedEdge pl m e) → pl.meshXsections ver pk ko m = .ok []) ∧
    ((∃ e, CrossedEdge pl m e) → ∃ v es, pl.meshXsections ver pk ko m = .ok [⟨v, true⟩] ∧ Traces pl m es ⟨v, true⟩ ∧ es.Nodup) := by
  obtain ⟨cs, ess, h1, h2, h3, h4, h5⟩ := C31_manifold ver pk ko pl m hv hp hoff (manifold_of_closed hcl) (.inl hcl)
  constructor
  · intro hno
    rw [h1]
    cases h2 with
    | nil => rfl
    | @cons es c ess cs t _ =>
      obtain ⟨e, he⟩ := List.exists_mem_of_ne_nil _ t.nonempty
      exact absurd ((h4 e).mp (by simp [he])) (hno e)
  · rintro ⟨e, he⟩
    cases h2 with
    | nil => exact absurd ((h4 e).mpr he) (by simp)
    | @cons es c ess cs t ts =>
      have hc : c.closed = true := h5 hcl c (by simp)
      rw [List.flatten_cons, List.nodup_append] at h3
      have hr := ring_of t h3.1 hc
      have mem : ∀ i, es.getD (i % es.length) (0, 0) ∈ es := fun i =>
        List.mem_of_getElem? (get_some _ (Nat.mod_lt _ (by have := hr.size; omega)))
      have hnil : cs = [] := by
        cases ts with
        | nil => rfl
        | @cons es' c' ess cs t' _ =>
          exfalso
          have hc' : c'.closed = true := h5 hcl c' (by simp)
          have hr' := ring_of t' (List.nodup_append.mp (List.flatten_cons ▸ h3.2.1)).1 hc'
          have out : ∀ j i, es'.getD (j % es'.length) (0, 0) ≠ es.getD (i % es.length) (0, 0) := by
            intro j i e
            have mem' : es'.getD (j % es'.length) (0, 0) ∈ es' :=
              List.mem_of_getElem? (get_some _ (Nat.mod_lt _ (by have := hr'.size; omega)))
            exact h3.2.2 _ (mem i) _ (List.mem_flatten.mpr ⟨es', by simp, mem'⟩) e.symm
          exact hr.all hn hcl hcv (hr'.link 0) (hr'.point 0) (hr'.point 1) (out 0) (out 1)
      subst hnil
      obtain ⟨v, cl⟩ := c
      simp only at hc
      subst hc
      exact ⟨v, es, h1, t, h3.1⟩

theorem point_of {pl : Plane ℝ} {m : Mesh ℝ} {es : List (ℕ × ℕ)} {c : Section ℝ} (h : Traces pl m es c) {q : V3 ℝ} (hq : q ∈ c.v) :
    ∃ e ∈ es, CrossPoint pl m e q := by
  have := h.points
  clear h
  generalize c.v = v at this hq
  induction this with
  | nil => simp at hq
  | cons h1 _ ih =>
    rcases List.mem_cons.mp hq with rfl | hq
    · exact ⟨_, by simp, h1⟩
    · obtain ⟨e, he, h⟩ := ih hq
      exact ⟨e, List.mem_cons_of_mem _ he, h⟩

theorem onPlane_of {pl : Plane ℝ} {m : Mesh ℝ} {es : List (ℕ × ℕ)} {c : Section ℝ} (h : Traces pl m es c) {q : V3 ℝ} (hq : q ∈ c.v) :
    OnPlane pl q := by
  obtain ⟨_, _, _, _, _, _, h, _⟩ := point_of h hq
  exact h

/-- a linear bound on points holds on their hull -/
theorem hull_bound {l : List (V3 ℝ)} {q w : V3 ℝ} {k : ℝ} (h : InHull3 l q) (hl : ∀ p ∈ l, inner3 w p ≤ k) : inner3 w q ≤ k := by
  rw [inHull_iff] at h
  have : convexHull ℝ (pts l) ⊆ {c : ℝ × ℝ × ℝ | w.x * c.1 + w.y * c.2.1 + w.z * c.2.2 ≤ k} := by
    refine convexHull_min ?_ ?_
    · rintro _ ⟨p, hp, rfl⟩
      exact hl p hp
    · intro a ha b hb s t hs ht hst
      simp only [Set.mem_ofPred_eq, Prod.fst_add, Prod.snd_add, Prod.smul_fst, Prod.smul_snd, smul_eq_mul] at ha hb ⊢
      have h1 := mul_le_mul_of_nonneg_left ha hs
      have h2 := mul_le_mul_of_nonneg_left hb ht
      have h3 : s * k + t * k = k := by rw [← add_mul, hst, one_mul]
      nlinarith
  exact this h

theorem hull_level {l : List (V3 ℝ)} {q w : V3 ℝ} {k : ℝ} (h : InHull3 l q) (hl : ∀ p ∈ l, inner3 w p = k) : inner3 w q = k := by
  refine le_antisymm (hull_bound h fun p hp => (hl p hp).le) ?_
  have := hull_bound (w := scale3 (-1) w) (k := -k) h fun p hp => by rw [TM.inner_neg, hl p hp]
  rw [TM.inner_neg] at this
  linarith

theorem hull_trans {l l' : List (V3 ℝ)} {q : V3 ℝ} (h : InHull3 l q) (hl : ∀ p ∈ l, InHull3 l' p) : InHull3 l' q := by
  rw [inHull_iff] at h ⊢
  refine convexHull_min ?_ (convex_convexHull ℝ _) h
  rintro _ ⟨p, hp, rfl⟩
  exact (inHull_iff _ _).mp (hl p hp)

/-- in a plane, a point is determined by its turns about two directions -/
theorem cramer {n a b c q : V3 ℝ} {k : ℝ} (hn : n ≠ zero3) (ha : inner3 n a = k) (hb : inner3 n b = k) (hc : inner3 n c = k)
    (hq : inner3 n q = k) {l : V3 ℝ} :
    Blmath.TM.turn n a b c * inner3 l q = Blmath.TM.turn n b c q * inner3 l a + Blmath.TM.turn n c a q * inner3 l b +
      Blmath.TM.turn n a b q * inner3 l c := by
  have hnn := (inner_self_pos hn).ne'
  have h1 : inner3 n (vec3 a b) = 0 := by simp only [inner3, vec3] at ha hb ⊢; linarith
  have h2 : inner3 n (vec3 a c) = 0 := by simp only [inner3, vec3] at ha hc ⊢; linarith
  have h3 : inner3 n (vec3 a q) = 0 := by simp only [inner3, vec3] at ha hq ⊢; linarith
  have flat : det3 (vec3 a q) (vec3 a b) (vec3 a c) = 0 := by
    apply mul_left_cancel₀ hnn
    generalize vec3 a b = d at *
    generalize vec3 a c = r at *
    generalize vec3 a q = s at *
    have key : inner3 n n * det3 s d r = det3 n d r * inner3 n s - inner3 n r * det3 n d s + inner3 n d * det3 n r s := by
      simp only [det3, inner3, cross3]; ring
    rw [h1, h2, h3] at key
    rw [key]; ring
  have key : Blmath.TM.turn n a b c * inner3 l q - (Blmath.TM.turn n b c q * inner3 l a + Blmath.TM.turn n c a q * inner3 l b +
      Blmath.TM.turn n a b q * inner3 l c) = inner3 l n * det3 (vec3 a q) (vec3 a b) (vec3 a c) := by
    simp only [Blmath.TM.turn, det3, inner3, cross3, vec3]; ring
  rw [flat, mul_zero] at key
  linarith

/-- a point on the inner side of the three sides of a triangle is in the triangle -/
theorem in_triangle {n a b c q : V3 ℝ} {k : ℝ} {v : List (V3 ℝ)} (hn : n ≠ zero3) (ha : inner3 n a = k) (hb : inner3 n b = k)
    (hc : inner3 n c = k) (hq : inner3 n q = k) (h0 : 0 < Blmath.TM.turn n a b c) (h1 : 0 ≤ Blmath.TM.turn n b c q)
    (h2 : 0 ≤ Blmath.TM.turn n c a q) (h3 : 0 ≤ Blmath.TM.turn n a b q) (va : a ∈ v) (vb : b ∈ v) (vc : c ∈ v) : InHull3 v q := by
  have hsum : Blmath.TM.turn n a b c = Blmath.TM.turn n b c q + Blmath.TM.turn n c a q + Blmath.TM.turn n a b q := by
    simp only [Blmath.TM.turn, det3, inner3, cross3, vec3]; ring
  have cx := cramer (l := ⟨1, 0, 0⟩) hn ha hb hc hq
  have cy := cramer (l := ⟨0, 1, 0⟩) hn ha hb hc hq
  have cz := cramer (l := ⟨0, 0, 1⟩) hn ha hb hc hq
  simp only [inner3, one_mul, zero_mul, add_zero, zero_add] at cx cy cz
  generalize Blmath.TM.turn n b c q = A at *
  generalize Blmath.TM.turn n c a q = B at *
  generalize Blmath.TM.turn n a b q = C at *
  generalize Blmath.TM.turn n a b c = D at *
  rcases (add_nonneg h2 h3).eq_or_lt with h | h
  · have hB : B = 0 := by linarith
    have hC : C = 0 := by linarith
    have hA : A = D := by linarith
    subst hB hC hA
    have : q = a := by
      ext
      · exact mul_left_cancel₀ h0.ne' (by linarith)
      · exact mul_left_cancel₀ h0.ne' (by linarith)
      · exact mul_left_cancel₀ h0.ne' (by linarith)
    rw [this]
    exact inHull_self va
  · have hm : InHull3 v ⟨B / (B + C) * b.x + C / (B + C) * c.x, B / (B + C) * b.y + C / (B + C) * c.y,
        B / (B + C) * b.z + C / (B + C) * c.z⟩ :=
      inHull_mix (inHull_self vb) (inHull_self vc) (a := B / (B + C)) (b := C / (B + C)) (by positivity) (by positivity)
        (by field_simp) rfl rfl rfl
    refine inHull_mix (inHull_self va) hm (a := A / D) (b := (B + C) / D) (by positivity) (by positivity) (by field_simp; linarith) ?_ ?_ ?_
    · field_simp; linarith
    · field_simp; linarith
    · field_simp; linarith

theorem LeftLoop.round {n : V3 ℝ} {v : List (V3 ℝ)} (h : LeftLoop n v) : ∀ e ∈ cyclicPairs v, ∀ p ∈ v, 0 ≤ Blmath.TM.turn n e.1 e.2 p := by
  intro e he p hp
  by_cases h1 : p = e.1
  · rw [h1]; exact le_of_eq (by simp only [Blmath.TM.turn, det3, inner3, cross3, vec3]; ring)
  · by_cases h2 : p = e.2
    · rw [h2]; exact le_of_eq (by simp only [Blmath.TM.turn, det3, inner3, cross3, vec3]; ring)
    · exact (h.left e he p hp h1 h2).le

/-- no vertex of a convex polygon is in the hull of the others -/
theorem LeftLoop.corners {n : V3 ℝ} {v : List (V3 ℝ)} (h : LeftLoop n v) : Corners v := by
  intro k q hk hin
  have hlt := (List.getElem?_eq_some_iff.mp hk).1
  have h3 := h.size
  obtain ⟨j, hj⟩ : ∃ j, j = (k + (v.length - 1)) % v.length := ⟨_, rfl⟩
  have hjl : j < v.length := hj ▸ Nat.mod_lt _ (by omega)
  have hjk : (j + 1) % v.length = k := by
    rw [hj, Nat.mod_add_mod, show k + (v.length - 1) + 1 = k + v.length by omega, Nat.add_mod_right, Nat.mod_eq_of_lt hlt]
  obtain ⟨p, hp⟩ : ∃ p, v[j]? = some p := ⟨_, List.getElem?_eq_getElem hjl⟩
  have hrl : (k + 1) % v.length < v.length := Nat.mod_lt _ (by omega)
  obtain ⟨r, hr⟩ : ∃ r, v[(k + 1) % v.length]? = some r := ⟨_, List.getElem?_eq_getElem hrl⟩
  have e1 : (p, q) ∈ cyclicPairs v := cyclic_mem (i := j) hp (by rw [hjk]; exact hk)
  have e2 : (q, r) ∈ cyclicPairs v := cyclic_mem (i := k) hk hr
  have inj : ∀ {i j : ℕ} {x}, v[i]? = some x → v[j]? = some x → i = j := fun hi hj =>
    (List.getElem?_inj (List.getElem?_eq_some_iff.mp hi).1 h.nodup).mp (hi.trans hj.symm)
  have hpr : p ≠ r := by
    rintro rfl
    have e := inj hp hr
    have a1 : (j + 1) % v.length = (k + 2) % v.length := by rw [e]; simp [Nat.add_assoc]
    rw [hjk] at a1
    rcases Nat.lt_or_ge (k + 2) v.length with hh | hh
    · rw [Nat.mod_eq_of_lt hh] at a1; omega
    · rw [Nat.mod_eq_sub_mod hh, Nat.mod_eq_of_lt (by omega)] at a1; omega
  have hqp : q ≠ p := by
    rintro rfl
    have e := inj hk hp
    rcases Nat.lt_or_ge (j + 1) v.length with hh | hh
    · rw [Nat.mod_eq_of_lt hh] at hjk; omega
    · rw [show j + 1 = v.length by omega, Nat.mod_self] at hjk; omega
  have hqr : q ≠ r := by
    rintro rfl
    have e := inj hk hr
    rcases Nat.lt_or_ge (k + 1) v.length with hh | hh
    · rw [Nat.mod_eq_of_lt hh] at e; omega
    · rw [show k + 1 = v.length by omega, Nat.mod_self] at e; omega
  -- the sum of the two turns is zero at `q` and positive at the other points
  obtain ⟨w, hw⟩ : ∃ w : V3 ℝ, ∀ z, Blmath.TM.turn n p q z + Blmath.TM.turn n q r z = inner3 w z - inner3 w q := by
    refine ⟨⟨(cross3 n (vec3 p q)).x + (cross3 n (vec3 q r)).x, (cross3 n (vec3 p q)).y + (cross3 n (vec3 q r)).y,
      (cross3 n (vec3 p q)).z + (cross3 n (vec3 q r)).z⟩, fun z => ?_⟩
    simp only [Blmath.TM.turn, det3, inner3, cross3, vec3]; ring
  have pos : ∀ z ∈ v.eraseIdx k, inner3 w q < inner3 w z := by
    intro z hz
    obtain ⟨i, hi, hik, hiz⟩ := List.mem_eraseIdx_iff_getElem.mp hz
    have hzv : z ∈ v := List.mem_of_mem_eraseIdx hz
    have hzq : z ≠ q := by
      rintro rfl
      exact hik (inj (List.getElem?_eq_some_iff.mpr ⟨hi, hiz⟩) hk)
    rw [← sub_pos, ← hw z]
    by_cases hzp : z = p
    · subst hzp
      exact add_pos_of_nonneg_of_pos (LeftLoop.round h _ e1 _ hzv) (h.left _ e2 _ hzv hzq hpr)
    · exact add_pos_of_pos_of_nonneg (h.left _ e1 _ hzv hzp hzq) (LeftLoop.round h _ e2 _ hzv)
  -- so some bound above the value at `q` holds on the hull
  have : inner3 w q < inner3 w q := by
    obtain ⟨μ, h1, h2⟩ : ∃ μ, inner3 w q < μ ∧ ∀ z ∈ v.eraseIdx k, μ ≤ inner3 w z := by
      generalize v.eraseIdx k = L at pos
      clear hin
      induction L with
      | nil => exact ⟨inner3 w q + 1, by linarith, by simp⟩
      | cons a L ih =>
        obtain ⟨μ, h1, h2⟩ := ih (fun z hz => pos z (List.mem_cons_of_mem _ hz))
        refine ⟨min μ (inner3 w a), lt_min h1 (pos a (by simp)), ?_⟩
        intro z hz
        rcases List.mem_cons.mp hz with rfl | hz
        · exact min_le_right _ _
        · exact (min_le_left _ _).trans (h2 z hz)
    have := hull_bound (w := scale3 (-1) w) (k := -μ) hin fun z hz => by
      rw [TM.inner_neg]; linarith [h2 z hz]
    rw [TM.inner_neg] at this
    linarith
  exact lt_irrefl _ this

theorem change_sign {P : Type} (f : P → ℝ) : ∀ (l : List P) (b : P), l ≠ [] → 0 ≤ f b → (∀ z, (b :: l).getLast? = some z → f z ≤ 0) →
    ∃ s ∈ pairs (b :: l), 0 ≤ f s.1 ∧ f s.2 ≤ 0
  | [], _, h, _, _ => absurd rfl h
  | [c], b, _, hb, hz => ⟨(b, c), by simp [pairs], hb, hz c (by simp)⟩
  | c :: d :: l, b, _, hb, hz => by
    by_cases hc : f c ≤ 0
    · exact ⟨(b, c), by simp [pairs], hb, hc⟩
    · obtain ⟨s, hs, h⟩ := change_sign f (d :: l) c (by simp) (not_le.mp hc).le (fun z h => hz z (by simpa using h))
      exact ⟨s, by rw [pairs]; exact List.mem_cons_of_mem _ hs, h⟩

/-- a convex polygon is what is on the inner side of its sides -/
theorem LeftLoop.solid {n q : V3 ℝ} {v : List (V3 ℝ)} {k : ℝ} (hn : n ≠ zero3) (h : LeftLoop n v) (hpl : ∀ p ∈ v, inner3 n p = k)
    (hq : inner3 n q = k) (hin : ∀ e ∈ cyclicPairs v, 0 ≤ Blmath.TM.turn n e.1 e.2 q) : InHull3 v q := by
  have hr := (LeftLoop.corners h).round hn hpl (LeftLoop.round h)
  have h3 := h.size
  match v, h3 with
  | a :: b :: c :: l, _ =>
    have hs := sorted_head (turning n) hr
    have hcp := cyclicPairs_cons a (b :: c :: l)
    obtain ⟨⟨s, t⟩, hst, f1, f2⟩ := change_sign (fun z => Blmath.TM.turn n a z q) (c :: l) b (by simp)
      (hin (a, b) (by rw [hcp]; simp)) (by
        intro z hz
        have : (z, a) ∈ cyclicPairs (a :: b :: c :: l) := by
          obtain ⟨i, hi⟩ : ∃ i, i + 1 = (a :: b :: c :: l).length := ⟨l.length + 2, by simp⟩
          refine cyclic_mem (i := i) ?_ (by rw [hi]; simp)
          rw [List.getLast?_eq_getElem?] at hz
          simp only [List.length_cons] at hi hz
          rw [show i = (l.length + 1 + 1 - 1) + 1 by omega, List.getElem?_cons_succ]
          exact hz
        have h0 := hin _ this
        have e2 := (turning n).cyc z a q
        have e3 := (turning n).swap a z q
        simp only at h0
        rw [e2, e3] at h0
        linarith)
    simp only at f1 f2
    obtain ⟨i, hi1, hi2⟩ := (Blmath.CH.mem_pairs _ _).mp hst
    simp only at hi1 hi2
    have ms : s ∈ b :: c :: l := List.mem_of_getElem? hi1
    have mt : t ∈ b :: c :: l := List.mem_of_getElem? hi2
    have h0 : 0 < Blmath.TM.turn n a s t := by
      rw [List.pairwise_iff_getElem] at hs
      obtain ⟨j1, rfl⟩ := List.getElem?_eq_some_iff.mp hi1
      obtain ⟨j2, rfl⟩ := List.getElem?_eq_some_iff.mp hi2
      exact hs i (i + 1) j1 j2 (by omega)
    have hcyc : (s, t) ∈ cyclicPairs (a :: b :: c :: l) := by
      have hlt := (List.getElem?_eq_some_iff.mp hi2).1
      refine cyclic_mem (i := i + 1) (by simpa using hi1) ?_
      rw [Nat.mod_eq_of_lt (by simp only [List.length_cons] at hlt ⊢; omega)]
      simpa using hi2
    refine in_triangle hn (hpl a (by simp)) (hpl s (List.mem_cons_of_mem _ ms)) (hpl t (List.mem_cons_of_mem _ mt)) hq h0
      (hin _ hcyc) ?_ f1 (by simp) (List.mem_cons_of_mem _ ms) (List.mem_cons_of_mem _ mt)
    rw [(turning n).cyc t a q, (turning n).swap a t q]
    linarith

theorem mem_cyclic_reverse {P : Type} {l : List P} {e : P × P} (h : e ∈ cyclicPairs l.reverse) : (e.2, e.1) ∈ cyclicPairs l := by
  obtain ⟨i, hi, h1, h2⟩ := mem_cyclic h
  rw [List.length_reverse] at hi h2
  rw [List.getElem?_reverse hi] at h1
  rw [List.getElem?_reverse (Nat.mod_lt _ (by omega))] at h2
  refine cyclic_mem (i := l.length - 1 - (i + 1) % l.length) h2 ?_
  rw [← h1]
  congr 1
  rcases Nat.lt_or_ge (i + 1) l.length with hh | hh
  · rw [Nat.mod_eq_of_lt hh, Nat.mod_eq_of_lt (by omega)]; omega
  · rw [show i + 1 = l.length by omega, Nat.mod_self, show l.length - 1 - 0 + 1 = l.length by omega, Nat.mod_self]; omega

theorem LeftLoop.reverse {n : V3 ℝ} {v : List (V3 ℝ)} (h : LeftLoop n v) : LeftLoop (scale3 (-1) n) v.reverse := by
  refine ⟨by simpa using h.size, List.nodup_reverse.mpr h.nodup, ?_⟩
  intro e he p hp n1 n2
  have := h.left _ (mem_cyclic_reverse he) p (List.mem_reverse.mp hp) n2 n1
  have e2 := TM.turn_neg n e.1 e.2 p
  have e3 : Blmath.TM.turn n e.1 e.2 p = -Blmath.TM.turn n e.2 e.1 p := by
    simp only [Blmath.TM.turn, det3, inner3, cross3, vec3]; ring
  unfold Blmath.TM.turn at e2 e3
  rw [e2, e3]
  linarith

theorem neg_neg3 (n : V3 ℝ) : scale3 (-1) (scale3 (-1) n) = n := by
  ext <;> simp only [scale3] <;> ring

/-- two convex polygons of a plane with the same vertices are the same, but for start and direction -/
theorem loops_unique {n : V3 ℝ} {v v' : List (V3 ℝ)} {k : ℝ} (hn : n ≠ zero3) (hpl : ∀ p ∈ v, inner3 n p = k)
    (h : ConvexLoop n v) (h' : ConvexLoop n v') (hm : ∀ p, p ∈ v ↔ p ∈ v') : v ~r v' ∨ v ~r v'.reverse := by
  have core : ∀ {n v v' k}, n ≠ zero3 → (∀ p ∈ v, inner3 n p = k) → LeftLoop n v → LeftLoop n v' → (∀ p, p ∈ v ↔ p ∈ v') → v ~r v' := by
    intro n v v' k hn hpl h h' hm
    exact unique_round (turning n) ((LeftLoop.corners h).round hn hpl (LeftLoop.round h))
      ((LeftLoop.corners h').round hn (fun p hp => hpl p ((hm p).mpr hp)) (LeftLoop.round h')) hm
  have hpl' : ∀ p ∈ v, inner3 (scale3 (-1) n) p = -k := fun p hp => by rw [TM.inner_neg, hpl p hp]
  have hm' : ∀ p, p ∈ v ↔ p ∈ v'.reverse := fun p => by rw [List.mem_reverse]; exact hm p
  rcases h with h | h <;> rcases h' with h' | h'
  · exact .inl (core hn hpl h h' hm)
  · exact .inr (core hn hpl h (neg_neg3 n ▸ LeftLoop.reverse h') hm')
  · exact .inr (core (TM.neg_ne hn) hpl' h (LeftLoop.reverse h') hm')
  · exact .inl (core (TM.neg_ne hn) hpl' h h' hm)

/-- a convex polygon is its own convex hull -/
theorem ConvexLoop.isHull {n : V3 ℝ} {v : List (V3 ℝ)} (h : ConvexLoop n v) : IsHull3 n v v := by
  refine ⟨fun p hp => inHull_self hp, ?_, ?_⟩
  · rcases h with h | h
    · exact LeftLoop.corners h
    · exact LeftLoop.corners h
  · rcases h with h | h
    · exact .inl (LeftLoop.round h)
    · refine .inr fun e he p hp => ?_
      have := LeftLoop.round h e he p hp
      rw [TM.turn_neg] at this
      have : Blmath.TM.turn n e.1 e.2 p ≤ 0 := by linarith
      exact this

/-- the hull of points of a plane is a convex polygon if it has at least three corners -/
theorem loop_of_hull {n : V3 ℝ} {v Q : List (V3 ℝ)} {k : ℝ} (hn : n ≠ zero3) (hpl : ∀ p ∈ v, inner3 n p = k) (h : IsHull3 n v Q)
    (hsub : ∀ q ∈ Q, q ∈ v) (h3 : 3 ≤ Q.length) : ConvexLoop n Q := by
  have hc : Corners Q := h.minimal
  have hne : ∀ e ∈ cyclicPairs Q, e.1 ≠ e.2 := by
    intro e he heq
    obtain ⟨i, hi, h1, h2⟩ := mem_cyclic he
    rw [heq, ← h2] at h1
    have := (List.getElem?_inj hi hc.nodup).mp h1
    rcases Nat.lt_or_ge (i + 1) Q.length with hh | hh
    · rw [Nat.mod_eq_of_lt hh] at this; omega
    · rw [show i + 1 = Q.length by omega, Nat.mod_self] at this; omega
  have mem : ∀ e ∈ cyclicPairs Q, e.1 ∈ Q ∧ e.2 ∈ Q := by
    intro e he
    obtain ⟨i, hi, h1, h2⟩ := mem_cyclic he
    exact ⟨List.mem_of_getElem? h1, List.mem_of_getElem? h2⟩
  have prop := hc.proper hn fun q hq => hpl q (hsub q hq)
  rcases h.oneWay with hl | hl
  · refine .inl ⟨h3, hc.nodup, fun e he p hp n1 n2 => lt_of_le_of_ne (hl e he p (hsub p hp)) ?_⟩
    exact (prop e.1 (mem e he).1 e.2 (mem e he).2 p hp (hne e he) n2.symm n1.symm).symm
  · refine .inr ⟨h3, hc.nodup, fun e he p hp n1 n2 => ?_⟩
    have e2 := TM.turn_neg n e.1 e.2 p
    have l1 : Blmath.TM.turn n e.1 e.2 p ≤ 0 := hl e he p (hsub p hp)
    have l2 := lt_of_le_of_ne l1 (prop e.1 (mem e he).1 e.2 (mem e he).2 p hp (hne e he) n2.symm n1.symm)
    unfold Blmath.TM.turn at e2 l2
    rw [e2]
    linarith

/-- a vector perpendicular to two vectors that are not parallel -/
theorem perp {n d r : V3 ℝ} (h1 : inner3 n d = 0) (h2 : inner3 n r = 0) :
    scale3 (inner3 n n) (cross3 d r) = scale3 (det3 n d r) n := by
  simp only [inner3] at h1 h2
  ext
  · simp only [scale3, cross3, det3, inner3]
    linear_combination (-(n.y * d.z - n.z * d.y)) * h2 + (n.y * r.z - n.z * r.y) * h1
  · simp only [scale3, cross3, det3, inner3]
    linear_combination (-(n.z * d.x - n.x * d.z)) * h2 + (n.z * r.x - n.x * r.z) * h1
  · simp only [scale3, cross3, det3, inner3]
    linear_combination (-(n.x * d.y - n.y * d.x)) * h2 + (n.x * r.y - n.y * r.x) * h1

theorem turn_scale (t : ℝ) (n a b c : V3 ℝ) : Blmath.TM.turn (scale3 t n) a b c = t * Blmath.TM.turn n a b c := by
  simp only [Blmath.TM.turn, det3, inner3, cross3, vec3, scale3]; ring

theorem LeftLoop.scale {n : V3 ℝ} {v : List (V3 ℝ)} {t : ℝ} (ht : 0 < t) (h : LeftLoop n v) : LeftLoop (scale3 t n) v :=
  ⟨h.size, h.nodup, fun e he p hp n1 n2 => by
    have := turn_scale t n e.1 e.2 p
    unfold Blmath.TM.turn at this
    rw [this]
    exact mul_pos ht (h.left e he p hp n1 n2)⟩

/-- it does not matter which normal of the plane is used -/
theorem ConvexLoop.normal {n n' : V3 ℝ} {v : List (V3 ℝ)} {k k' : ℝ} (hn : n ≠ zero3) (hn' : n' ≠ zero3) (hpl : ∀ p ∈ v, inner3 n p = k)
    (hpl' : ∀ p ∈ v, inner3 n' p = k') (h : ConvexLoop n v) : ConvexLoop n' v := by
  have core : ∀ {n n' : V3 ℝ} {k k'}, n ≠ zero3 → n' ≠ zero3 → (∀ p ∈ v, inner3 n p = k) → (∀ p ∈ v, inner3 n' p = k') →
      LeftLoop n v → ConvexLoop n' v := by
    intro n n' k k' hn hn' hpl hpl' h
    have h3 := h.size
    match v, h3, hpl, hpl', h with
    | a :: b :: c :: l, _, hpl, hpl', h =>
      have hab : (a, b) ∈ cyclicPairs (a :: b :: c :: l) := by rw [cyclicPairs_cons]; simp
      have hnd := h.nodup
      simp only [List.nodup_cons, List.mem_cons, not_or] at hnd
      have ht := h.left _ hab c (by simp) (Ne.symm hnd.1.2.1) (Ne.symm hnd.2.1.1)
      have z : ∀ {n : V3 ℝ} {k}, (∀ p ∈ a :: b :: c :: l, inner3 n p = k) → inner3 n (vec3 a b) = 0 ∧ inner3 n (vec3 a c) = 0 := by
        intro n k hpl
        have p1 := hpl a (by simp)
        have p2 := hpl b (by simp)
        have p3 := hpl c (by simp)
        simp only [inner3, vec3] at p1 p2 p3 ⊢
        constructor <;> linarith
      have e1 := perp (z hpl).1 (z hpl).2
      have e2 := perp (z hpl').1 (z hpl').2
      simp only at ht
      generalize vec3 a b = d at *
      generalize vec3 a c = r at *
      have g : 0 < inner3 n n := inner_self_pos hn
      have g' : 0 < inner3 n' n' := inner_self_pos hn'
      have hD' : det3 n' d r ≠ 0 := by
        intro h0
        rw [h0] at e2
        have hx := congrArg V3.x e2
        have hy := congrArg V3.y e2
        have hz := congrArg V3.z e2
        simp only [scale3, zero_mul, mul_eq_zero, g'.ne', false_or] at hx hy hz
        have : det3 n d r = inner3 n (cross3 d r) := by simp only [det3, inner3, cross3]; ring
        rw [this] at ht
        simp only [inner3, hx, hy, hz, mul_zero, add_zero, lt_self_iff_false] at ht
      obtain ⟨t, htd⟩ : ∃ t, t = inner3 n' n' * det3 n d r / (det3 n' d r * inner3 n n) := ⟨_, rfl⟩
      have hs : n' = scale3 t n := by
        have hx := congrArg V3.x e2
        have hy := congrArg V3.y e2
        have hz := congrArg V3.z e2
        have hx' := congrArg V3.x e1
        have hy' := congrArg V3.y e1
        have hz' := congrArg V3.z e1
        simp only [scale3] at hx hy hz hx' hy' hz'
        have key : ∀ x y z : ℝ, inner3 n n * z = det3 n d r * x → inner3 n' n' * z = det3 n' d r * y → y = t * x := by
          intro x y z a1 a2
          rw [htd]
          field_simp
          linear_combination (-(inner3 n n)) * a2 + inner3 n' n' * a1
        ext
        · exact key _ _ _ hx' hx
        · exact key _ _ _ hy' hy
        · exact key _ _ _ hz' hz
      have ht0 : t ≠ 0 := by
        rw [htd]
        exact div_ne_zero (mul_ne_zero g'.ne' ht.ne') (mul_ne_zero hD' g.ne')
      rcases lt_or_gt_of_ne ht0 with hlt | hgt
      · right
        have : scale3 (-1) n' = scale3 (-t) n := by
          rw [hs]; ext <;> simp only [scale3] <;> ring
        rw [this]
        exact LeftLoop.scale (by linarith) h
      · left
        rw [hs]
        exact LeftLoop.scale hgt h
  rcases h with h | h
  · exact core hn hn' hpl hpl' h
  · exact core (TM.neg_ne hn) hn' (fun p hp => by rw [TM.inner_neg, hpl p hp]) hpl' h

theorem hull2_of {m : V3 ℝ} {Q v : List (V3 ℝ)} {k : ℝ} {d : ℕ} (hm : m ≠ zero3) (h : LeftLoop m Q) (hpl : ∀ p ∈ Q, inner3 m p = k)
    (hs : 0 < turnSign d m) (hd : comp d m ≠ 0) (hv : ∀ p, p ∈ v ↔ p ∈ Q) : IsHull2 (v.map (dropDim d)) (Q.map (dropDim d)) := by
  refine ⟨?_, ?_, ?_⟩
  · intro p hp
    obtain ⟨p, hp', rfl⟩ := List.mem_map.mp hp
    have hp := (hv p).mp hp'
    exact (inHull_drop hd hpl (hpl p hp)).mpr (inHull_self hp)
  · intro i q hq hin
    rw [List.getElem?_map] at hq
    obtain ⟨a, ha, rfl⟩ := Option.map_eq_some_iff.mp hq
    rw [List.eraseIdx_map] at hin
    exact LeftLoop.corners h i a ha ((inHull_drop hd (fun r hr => hpl r (List.mem_of_mem_eraseIdx hr))
      (hpl a (List.mem_of_getElem? ha))).mp hin)
  · intro e he p hp
    obtain ⟨p, hp', rfl⟩ := List.mem_map.mp hp
    unfold cyclicPairs at he
    rw [← List.map_rotate, List.zip_map] at he
    obtain ⟨e, hf, rfl⟩ := List.mem_map.mp he
    have hp := (hv p).mp hp'
    have h1 : e.1 ∈ Q := (List.of_mem_zip hf).1
    have h2 : e.2 ∈ Q := List.mem_rotate.mp (List.of_mem_zip hf).2
    have h3 := LeftLoop.round h e hf p hp
    have h4 := area_drop (d := d) (hpl _ h1) (hpl _ h2) (hpl p hp)
    have h5 : 0 ≤ inner3 m m * area2 (dropDim d e.1) (dropDim d e.2) (dropDim d p) := by
      rw [← h4]; exact mul_nonneg hs.le h3
    exact nonneg_of_mul_nonneg_right h5 (inner_self_pos hm)

/-- a hull routine has an answer for a convex polygon -/
theorem ConvexLoop.hull {n : V3 ℝ} {v : List (V3 ℝ)} {k : ℝ} {d : ℕ} (hn : n ≠ zero3) (hd : comp d n ≠ 0) (hpl : ∀ p ∈ v, inner3 n p = k)
    (h : ConvexLoop n v) : ∃ idx, HullSpec (v.map (dropDim d)) idx := by
  have pick : ∀ (Q : List (V3 ℝ)) (idx : List ℕ), Q.map some = idx.map (fun i => v[i]?) → Q ≠ [] → (∀ i ∈ idx, i < v.length) →
      IsHull2 (v.map (dropDim d)) (Q.map (dropDim d)) → HullSpec (v.map (dropDim d)) idx := by
    intro Q idx hQ hne hr hh
    refine ⟨?_, fun i hi => by simpa using hr i hi, fun qs hqs => ?_⟩
    · rintro rfl
      simp at hQ
      exact hne hQ
    · have : qs.map some = (Q.map (dropDim d)).map some := by
        rw [show qs.map some = idx.map (fun i => (v.map (dropDim d))[i]?) from hqs]
        have := congrArg (List.map (Option.map (dropDim d))) hQ
        simp only [List.map_map] at this ⊢
        rw [show (some ∘ dropDim d : V3 ℝ → Option (ℝ × ℝ)) = Option.map (dropDim d) ∘ some from rfl, this]
        simp [Function.comp_def]
      rw [List.map_injective_iff.mpr (Option.some_injective _) this]
      exact hh
  have fwd : v.map some = (List.range v.length).map (fun i => v[i]?) := by
    apply List.ext_getElem
    · simp
    · intro i h1 h2
      simp at h1
      simp [h1]
  have bwd : v.reverse.map some = (List.range v.length).reverse.map (fun i => v[i]?) := by
    rw [List.map_reverse, List.map_reverse, fwd]
  have core : ∀ {m : V3 ℝ} {k}, m ≠ zero3 → comp d m ≠ 0 → (∀ p ∈ v, inner3 m p = k) → LeftLoop m v → ∃ idx, HullSpec (v.map (dropDim d)) idx := by
    intro m k hm hd hpl h
    have hne : v ≠ [] := by
      rintro rfl
      simpa using h.size
    have hs : turnSign d m ≠ 0 := by
      unfold turnSign; split
      · exact neg_ne_zero.mpr hd
      · exact hd
    have hcn : comp d (scale3 (-1) m) = -comp d m := by
      unfold comp; simp only [scale3]; split <;> [ring; split <;> ring]
    rcases lt_or_gt_of_ne hs with hs | hs
    · refine ⟨_, pick v.reverse _ bwd (by simpa using hne) (by simp) ?_⟩
      refine hull2_of (TM.neg_ne hm) (LeftLoop.reverse h) (k := -k) (fun p hp => by
        rw [TM.inner_neg, hpl p (List.mem_reverse.mp hp)]) ?_ (by rw [hcn]; exact neg_ne_zero.mpr hd) (by simp)
      have : turnSign d (scale3 (-1) m) = -turnSign d m := by
        unfold turnSign; rw [hcn]; split <;> rfl
      rw [this]; linarith
    · exact ⟨_, pick v _ fwd hne (by simp) (hull2_of hm h hpl hs hd (fun _ => Iff.rfl))⟩
  rcases h with h | h
  · exact core hn hd hpl h
  · refine core (TM.neg_ne hn) ?_ (fun p hp => by rw [TM.inner_neg, hpl p hp]) h
    intro e
    apply hd
    unfold comp at e ⊢
    simp only [scale3] at e
    split <;> rename_i h0
    · rw [if_pos h0] at e; linarith
    · rw [if_neg h0] at e
      split <;> rename_i h1
      · rw [if_pos h1] at e; linarith
      · rw [if_neg h1] at e; linarith

/-- points of the solid are on the inner side of every segment of the section -/
theorem Ring.body {pl : Plane ℝ} {m : Mesh ℝ} {k : ℕ} {E : ℕ → ℕ × ℕ} {X : ℕ → V3 ℝ} (h : Ring pl m k E X) (hn : pl.n ≠ zero3)
    (hcl : ClosedMesh m) (hcv : ConvexMesh m) (i : ℕ) {q : V3 ℝ} (hq : OnPlane pl q) (hin : InHull3 m.v q) :
    0 ≤ Blmath.TM.turn pl.n (X 0) (X 1) (X 2) * Blmath.TM.turn pl.n (X i) (X (i + 1)) q := by
  have hk := h.size
  have n1 : ¬ k ∣ 1 := fun hd => by have := Nat.le_of_dvd (by omega) hd; omega
  have n2 : ¬ k ∣ 2 := fun hd => by have := Nat.le_of_dvd (by omega) hd; omega
  obtain ⟨hne, ce, ce', f, hf, fe, fe'⟩ := h.link i
  obtain ⟨w, κ, hw⟩ := hcv f hf
  have on : ∀ {e q}, CrossPoint pl m e q → inner3 pl.n q = inner3 pl.n pl.r0 := by
    rintro e q ⟨_, _, _, _, h, _⟩
    exact inner_of_onPlane h
  have ce2 := (h.link (i + 2)).2.1
  have a1 : E (i + 2) ≠ E i := (h.ne i (s := 0) (t := 2) (by omega) n2).symm
  have a2 : E (i + 2) ≠ E (i + 1) := (h.ne i (s := 1) (t := 2) (by omega) n1).symm
  have s2 : inner3 w (X (i + 2)) < κ := by
    refine (sides hw ce2 (h.point (i + 2))).2 ?_
    by_contra hc
    rw [Bool.not_eq_false] at hc
    exact a2 (Blmath.CH.third ce ce' ce2 fe fe' hc hne a1.symm).symm
  have le : ∀ p ∈ m.v, inner3 w p ≤ κ := by
    intro p hp
    obtain ⟨j, hj⟩ := List.mem_iff_getElem?.mp hp
    cases hc : corner f j with
    | true => exact ((hw j p hj).1 hc).le
    | false => exact ((hw j p hj).2 hc).le
  have sq := hull_bound hin le
  have w1 := (sides hw ce (h.point i)).1 fe
  have w2 := (sides hw ce' (h.point (i + 1))).1 fe'
  have t1 := turn_sign (on (h.point i)) (on (h.point (i + 1))) (on (h.point (i + 2))) w1 w2
  have t2 := turn_sign (on (h.point i)) (on (h.point (i + 1))) (inner_of_onPlane hq) w1 w2
  have hpos : 0 < inner3 pl.n pl.n * inner3 (vec3 (X i) (X (i + 1))) (vec3 (X i) (X (i + 1))) :=
    mul_pos (inner_self_pos hn) (inner_self_pos (vec_ne (apart hcl hcv ce ce' (h.point i) (h.point (i + 1)) hne)))
  have l1 := mul_neg_of_pos_of_neg hpos (sub_neg.mpr s2)
  have l2 := mul_nonpos_of_nonneg_of_nonpos hpos.le (sub_nonpos.mpr sq)
  rw [← t1] at l1
  rw [← t2] at l2
  have l3 := h.turns hn hcl hcv i
  generalize inner3 w (cross3 pl.n (vec3 (X i) (X (i + 1)))) = G at l1 l2
  generalize Blmath.TM.turn pl.n (X i) (X (i + 1)) q = A at *
  generalize Blmath.TM.turn pl.n (X i) (X (i + 1)) (X (i + 2)) = B at *
  generalize Blmath.TM.turn pl.n (X 0) (X 1) (X 2) = S at *
  by_contra hc
  push Not at hc
  have p1 := mul_neg_of_pos_of_neg l3 l1
  have e1 : S * B * (B * G) = (S * G) * (B * B) := by ring
  rw [e1] at p1
  have p2 : S * G < 0 := by
    by_contra hg
    push Not at hg
    have := mul_nonneg hg (mul_self_nonneg B)
    linarith
  have p3 : 0 < (S * A) * (S * G) := mul_pos_of_neg_of_neg hc p2
  have e2 : (S * A) * (S * G) = (S * S) * (A * G) := by ring
  rw [e2] at p3
  have := mul_nonpos_of_nonneg_of_nonpos (mul_self_nonneg S) l2
  linarith

end CX

open CX

/-- **C131.** A closed convex mesh (all other vertices strictly on one side of the plane of each face) and a plane through none of its
vertices: the section is one closed polyline, or there is none if no edge crosses the plane.  The polyline is a convex polygon: its
vertices are all different, and for every side all the other vertices are strictly on the same side of it. -/
theorem C131_one_loop (ver : PyVer) (pk : ℕ → Picker) (ko : ℕ → KeyOrder) (pl : Plane ℝ) (m : Mesh ℝ)
    (hn : pl.n ≠ zero3) (hv : ValidFaces m) (hp : ∀ f ∈ m.f, ProperFace f) (hoff : ∀ p ∈ m.v, ¬ OnPlane pl p)
    (hcl : ClosedMesh m) (hcv : ConvexMesh m) :
    ((∀ e, ¬ CrossedEdge pl m e) → pl.meshXsections ver pk ko m = .ok []) ∧
    ((∃ e, CrossedEdge pl m e) → ∃ v, pl.meshXsections ver pk ko m = .ok [⟨v, true⟩] ∧ ConvexLoop pl.n v ∧ ∀ q ∈ v, OnPlane pl q) := by
  refine ⟨(whole ver pk ko pl m hn hv hp hoff hcl hcv).1, fun he => ?_⟩
  obtain ⟨v, es, h1, t, hnd⟩ := (whole ver pk ko pl m hn hv hp hoff hcl hcv).2 he
  exact ⟨v, h1, loop_of hn hcl hcv t hnd rfl, fun q hq => onPlane_of t hq⟩

/-- **C131.** A neighborhood makes no difference, and `mesh_xsection` returns the same polyline. -/
theorem C131_no_choice (ver : PyVer) (pk : ℕ → Picker) (ko : ℕ → KeyOrder) (pl : Plane ℝ) (m : Mesh ℝ) (v : List (V3 ℝ))
    (h : pl.meshXsections ver pk ko m = .ok [⟨v, true⟩]) (nbh : Option (V3 ℝ × List (V3 ℝ))) :
    pl.meshXsections ver pk ko m nbh = .ok [⟨v, true⟩] ∧ pl.meshXsection ver pk ko m nbh = .ok (some ⟨v, true⟩) := by
  have h1 : pl.meshXsections ver pk ko m nbh = .ok [⟨v, true⟩] := by
    cases nbh with
    | none => exact h
    | some nbh =>
      obtain ⟨k, c, hk, h2, -⟩ := C31_neighborhood ver pk ko pl m nbh _ h (by simp)
      rw [h2]
      have : c = ⟨v, true⟩ := by
        have := List.mem_of_getElem? hk
        simpa using this
      subst this
      simp
  refine ⟨h1, ?_⟩
  have := (C31_single ver pk ko pl m nbh).1 _ h1 (by simp)
  simpa using this

/-- **C131.** The section is the outline of the solid: a point of the plane is in the convex hull of the polyline if and only if it is in
the convex hull of the mesh. -/
theorem C131_solid (ver : PyVer) (pk : ℕ → Picker) (ko : ℕ → KeyOrder) (pl : Plane ℝ) (m : Mesh ℝ)
    (hn : pl.n ≠ zero3) (hv : ValidFaces m) (hp : ∀ f ∈ m.f, ProperFace f) (hoff : ∀ p ∈ m.v, ¬ OnPlane pl p)
    (hcl : ClosedMesh m) (hcv : ConvexMesh m) (he : ∃ e, CrossedEdge pl m e) :
    ∃ v, pl.meshXsections ver pk ko m = .ok [⟨v, true⟩] ∧ ∀ q, InHull3 v q ↔ OnPlane pl q ∧ InHull3 m.v q := by
  obtain ⟨v, es, h1, t, hnd⟩ := (whole ver pk ko pl m hn hv hp hoff hcl hcv).2 he
  have hlev : ∀ p ∈ v, inner3 pl.n p = inner3 pl.n pl.r0 := fun p hp => inner_of_onPlane (onPlane_of t hp)
  refine ⟨v, h1, fun q => ⟨fun h => ⟨?_, hull_trans h ?_⟩, ?_⟩⟩
  · have := hull_level h hlev
    rw [onPlane_iff]
    simp only [height, inner3, vec3] at this ⊢
    linarith
  · intro p hp
    obtain ⟨e, -, a, b, ha, hb, -, s, s0, s1, rfl⟩ := point_of t hp
    refine inHull_mix (inHull_self (List.mem_of_getElem? ha)) (inHull_self (List.mem_of_getElem? hb)) (a := 1 - s) (b := s) (by linarith)
      s0 (by ring) ?_ ?_ ?_ <;> simp only [along, vec3] <;> ring
  · rintro ⟨hq, hin⟩
    have hr := ring_of t hnd rfl
    have hlen : es.length = v.length := t.points.length_eq
    have hb := fun i => hr.body hn hcl hcv i hq hin
    have ht0 := hr.turns hn hcl hcv 0
    have hloop := loop_of hn hcl hcv t hnd rfl
    have h3 := hr.size
    simp only [Nat.zero_add] at ht0
    simp only at hb ht0
    have g0 : ∀ i (hi : i < v.length), v[i]? = some (v.getD (i % es.length) zero3) := by
      intro i hi
      rw [Nat.mod_eq_of_lt (by omega)]; exact get_some _ hi
    have first : (v.getD (0 % es.length) zero3, v.getD (1 % es.length) zero3) ∈ cyclicPairs v := by
      refine cyclic_mem (i := 0) (g0 0 (by omega)) ?_
      rw [Nat.mod_eq_of_lt (by omega)]
      exact g0 1 (by omega)
    have hedge : ∀ e ∈ cyclicPairs v, ∃ i, e.1 = v.getD (i % es.length) zero3 ∧ e.2 = v.getD ((i + 1) % es.length) zero3 := by
      intro e he
      obtain ⟨i, hi, e1, e2⟩ := mem_cyclic he
      refine ⟨i, ?_, ?_⟩
      · rw [Nat.mod_eq_of_lt (by omega)]; exact (getD_of e1).symm
      · rw [hlen]; exact (getD_of e2).symm
    have m2 := List.mem_of_getElem? (g0 2 (by omega))
    generalize hS : Blmath.TM.turn pl.n (v.getD (0 % es.length) zero3) (v.getD (1 % es.length) zero3) (v.getD (2 % es.length) zero3) = S at *
    have hS0 : S ≠ 0 := by
      rintro rfl
      simp at ht0
    rcases hloop with hl | hl
    · have hpos : 0 < S := by
        have := LeftLoop.round hl _ first _ m2
        simp only [hS] at this
        exact lt_of_le_of_ne this hS0.symm
      refine LeftLoop.solid hn hl hlev (inner_of_onPlane hq) fun e he => ?_
      obtain ⟨i, e1, e2⟩ := hedge e he
      rw [e1, e2]
      exact nonneg_of_mul_nonneg_right (hb i) hpos
    · have hneg : S < 0 := by
        have := LeftLoop.round hl _ first _ m2
        rw [TM.turn_neg] at this
        simp only [hS] at this
        exact lt_of_le_of_ne (by linarith) hS0
      refine LeftLoop.solid (TM.neg_ne hn) hl (k := -inner3 pl.n pl.r0) (fun p hp => by rw [TM.inner_neg, hlev p hp])
        (by rw [TM.inner_neg, inner_of_onPlane hq]) fun e he => ?_
      obtain ⟨i, e1, e2⟩ := hedge e he
      rw [e1, e2, TM.turn_neg]
      have := hb i
      nlinarith

/-- **C131.** Which polygon it is does not depend on the order in which Python's sets and dicts are gone through, except for the vertex it
starts with and the direction. -/
theorem C131_unique (ver ver' : PyVer) (pk pk' : ℕ → Picker) (ko ko' : ℕ → KeyOrder) (pl : Plane ℝ) (m : Mesh ℝ)
    (hn : pl.n ≠ zero3) (hv : ValidFaces m) (hp : ∀ f ∈ m.f, ProperFace f) (hoff : ∀ p ∈ m.v, ¬ OnPlane pl p)
    (hcl : ClosedMesh m) (hcv : ConvexMesh m) (he : ∃ e, CrossedEdge pl m e) :
    ∃ v v', pl.meshXsections ver pk ko m = .ok [⟨v, true⟩] ∧ pl.meshXsections ver' pk' ko' m = .ok [⟨v', true⟩] ∧
      (v ~r v' ∨ v ~r v'.reverse) := by
  obtain ⟨v, h1, k1⟩ := C131_solid ver pk ko pl m hn hv hp hoff hcl hcv he
  obtain ⟨v', h1', k1'⟩ := C131_solid ver' pk' ko' pl m hn hv hp hoff hcl hcv he
  obtain ⟨_, h2, l, on⟩ := (C131_one_loop ver pk ko pl m hn hv hp hoff hcl hcv).2 he
  obtain ⟨_, h2', l', on'⟩ := (C131_one_loop ver' pk' ko' pl m hn hv hp hoff hcl hcv).2 he
  rw [h1] at h2; rw [h1'] at h2'
  cases h2; cases h2'
  refine ⟨v, v', h1, h1', loops_unique hn (fun p hp => inner_of_onPlane (on p hp)) l l' ?_⟩
  have c := (ConvexLoop.isHull l).minimal
  have c' := (ConvexLoop.isHull l').minimal
  have s : ∀ q ∈ v, InHull3 v' q := fun q hq => (k1' q).mpr ((k1 q).mp (inHull_self hq))
  have s' : ∀ q ∈ v', InHull3 v q := fun q hq => (k1 q).mpr ((k1' q).mp (inHull_self hq))
  exact fun p => ⟨corners_unique c s s' p, corners_unique c' s' s p⟩

/-- **C131.** Convexifying the section of a convex mesh changes nothing but the starting vertex and the direction, and keeps its length. -/
theorem C131_convexify (ver : PyVer) (pk : ℕ → Picker) (ko : ℕ → KeyOrder) (pl : Plane ℝ) (m : Mesh ℝ)
    (hn : pl.n ≠ zero3) (hv : ValidFaces m) (hp : ∀ f ∈ m.f, ProperFace f) (hoff : ∀ p ∈ m.v, ¬ OnPlane pl p)
    (hcl : ClosedMesh m) (hcv : ConvexMesh m) (he : ∃ e, CrossedEdge pl m e) :
    ∃ v, pl.meshXsections ver pk ko m = .ok [⟨v, true⟩] ∧
      ∀ (env : HullEnv ℝ) (want : Bool) (na : NormalArg ℝ) (n : V3 ℝ) (c : ℝ), UsesNormal env v na n → n ≠ zero3 →
        (∀ p ∈ v, inner3 n p = c) → ∀ idx, env.hull (v.map (dropDim (argmax3 (n.map npAbs)))) = .ok idx →
        HullSpec (v.map (dropDim (argmax3 (n.map npAbs)))) idx →
        ∃ qs i, convexify env (poly v true) false want na = .ok (poly qs true, i) ∧ (qs ~r v ∨ qs ~r v.reverse) ∧
          (poly qs true).totalLength = (poly v true).totalLength := by
  obtain ⟨v, h1, l, on⟩ := (C131_one_loop ver pk ko pl m hn hv hp hoff hcl hcv).2 he
  refine ⟨v, h1, fun env want na n c hna hn0 hpl idx hh hs => ?_⟩
  have l := ConvexLoop.normal hn hn0 (fun p hp => inner_of_onPlane (on p hp)) hpl l
  have h3 : 3 ≤ v.length := l.elim (·.size) (·.size)
  obtain ⟨qs, k1, k2, k3⟩ := C57_planar env v true want na n c (by omega) hna hn0 hpl idx hh hs
  have hsub := picks_mem k2
  have hv' : ∀ p ∈ v, p ∈ qs := corners_unique (ConvexLoop.isHull l).minimal k3.covers (fun q hq => inHull_self (hsub q hq))
  have hq3 : 3 ≤ qs.length := by
    have hnd : v.Nodup := l.elim (·.nodup) (·.nodup)
    exact h3.trans (hnd.subperm hv').length_le
  have lq := loop_of_hull hn0 hpl k3 hsub hq3
  refine ⟨qs, _, k1, loops_unique hn0 (fun p hp => hpl p (hsub p hp)) lq l (fun p => ⟨hsub p, hv' p⟩), ?_⟩
  rw [(C35_lengths qs true).2, (C35_lengths v true).2, tour_eq, tour_eq]
  exact congrArg _ (le_antisymm (TM.hull_le hn0 hpl hsub k3 hsub)
    (TM.hull_le hn0 hpl (fun q hq => hq) (ConvexLoop.isHull l) hv'))

/-! An octahedron cut by a slanted plane through its centre: the section is a hexagon. -/

/-- the octahedron -/
def octa : Mesh ℝ :=
  ⟨[⟨1, 0, 0⟩, ⟨-1, 0, 0⟩, ⟨0, 1, 0⟩, ⟨0, -1, 0⟩, ⟨0, 0, 1⟩, ⟨0, 0, -1⟩],
    [(0, 2, 4), (2, 1, 4), (1, 3, 4), (3, 0, 4), (2, 0, 5), (1, 2, 5), (3, 1, 5), (0, 3, 5)]⟩

/-- the plane through the origin with normal (1, 2, 3) -/
def slant : Plane ℝ := ⟨⟨0, 0, 0⟩, ⟨1, 2, 3⟩⟩

theorem octa_closed : ClosedMesh octa := by
  refine ⟨?_, ?_⟩
  · intro f hf u v huv
    have hu : u < 6 ∧ v < 6 ∧ decide (u ≠ v) = true := by
      simp only [hasEdge, corner, Bool.and_eq_true, decide_eq_true_eq] at huv
      simp only [octa, List.mem_cons, List.not_mem_nil, or_false] at hf
      rcases hf with rfl | rfl | rfl | rfl | rfl | rfl | rfl | rfl <;> simp at huv ⊢ <;> omega
    have h2 : (octa.f.any fun f => hasEdge f u v) = true := List.any_eq_true.mpr ⟨f, hf, huv⟩
    obtain ⟨hu, hv, hne⟩ := hu
    clear huv hf f
    simp only [octa] at h2 ⊢
    interval_cases u <;> interval_cases v <;> first | rfl | exact absurd hne (by decide) | exact absurd h2 (by decide)
  · have key : octa.f.Pairwise fun f g => ∃ u, corner f u ≠ corner g u := by
      have : (octa.f.Pairwise fun f g => ∃ u : Fin 6, corner f u ≠ corner g u) := by
        simp only [octa]
        decide
      exact this.imp fun ⟨u, h⟩ => ⟨u, h⟩
    exact key.imp fun ⟨u, h⟩ hs => h (hs u)

theorem octa_convex : ConvexMesh octa := by
  have key : ∀ (x y z : ℕ) (w : V3 ℝ), (∀ i (hi : i < 6), (corner (x, y, z) i = true → inner3 w (octa.v.getD i zero3) = 1) ∧
      (corner (x, y, z) i = false → inner3 w (octa.v.getD i zero3) < 1)) →
      ∃ (w : V3 ℝ) (k : ℝ), ∀ (i : ℕ) p, octa.v[i]? = some p →
        (corner (x, y, z) i = true → inner3 w p = k) ∧ (corner (x, y, z) i = false → inner3 w p < k) := by
    intro x y z w h
    refine ⟨w, 1, fun i p hp => ?_⟩
    have hi : i < 6 := (List.getElem?_eq_some_iff.mp hp).1
    have := h i hi
    rwa [getD_of hp] at this
  intro f hf
  simp only [octa, List.mem_cons, List.not_mem_nil, or_false] at hf
  rcases hf with rfl | rfl | rfl | rfl | rfl | rfl | rfl | rfl
  · refine key _ _ _ ⟨1, 1, 1⟩ fun i hi => ?_
    interval_cases i <;> simp [corner, octa, inner3]
  · refine key _ _ _ ⟨-1, 1, 1⟩ fun i hi => ?_
    interval_cases i <;> simp [corner, octa, inner3]
  · refine key _ _ _ ⟨-1, -1, 1⟩ fun i hi => ?_
    interval_cases i <;> simp [corner, octa, inner3]
  · refine key _ _ _ ⟨1, -1, 1⟩ fun i hi => ?_
    interval_cases i <;> simp [corner, octa, inner3]
  · refine key _ _ _ ⟨1, 1, -1⟩ fun i hi => ?_
    interval_cases i <;> simp [corner, octa, inner3]
  · refine key _ _ _ ⟨-1, 1, -1⟩ fun i hi => ?_
    interval_cases i <;> simp [corner, octa, inner3]
  · refine key _ _ _ ⟨-1, -1, -1⟩ fun i hi => ?_
    interval_cases i <;> simp [corner, octa, inner3]
  · refine key _ _ _ ⟨1, -1, -1⟩ fun i hi => ?_
    interval_cases i <;> simp [corner, octa, inner3]

/-- the octahedron and the slanted plane meet the hypotheses of `C131_one_loop`, `C131_solid`, `C131_unique` and `C131_convexify`, and the
centre is inside the section -/
theorem C131_witness (pk : ℕ → Picker) (ko : ℕ → KeyOrder) :
    slant.n ≠ zero3 ∧ ValidFaces octa ∧ (∀ f ∈ octa.f, ProperFace f) ∧ (∀ p ∈ octa.v, ¬ OnPlane slant p) ∧ ClosedMesh octa ∧
    ConvexMesh octa ∧ CrossedEdge slant octa (0, 5) ∧
    ∃ v, slant.meshXsections .py3 pk ko octa = .ok [⟨v, true⟩] ∧ ConvexLoop slant.n v ∧ InHull3 v ⟨0, 0, 0⟩ := by
  have hn : slant.n ≠ zero3 := by
    intro h
    have := congrArg V3.x h
    simp [slant, zero3] at this
  have hv : ValidFaces octa := by
    intro f hf
    simp only [octa, List.mem_cons, List.not_mem_nil, or_false] at hf ⊢
    rcases hf with rfl | rfl | rfl | rfl | rfl | rfl | rfl | rfl <;> simp
  have hp : ∀ f ∈ octa.f, ProperFace f := by
    intro f hf
    simp only [octa, List.mem_cons, List.not_mem_nil, or_false] at hf
    rcases hf with rfl | rfl | rfl | rfl | rfl | rfl | rfl | rfl <;> simp [ProperFace]
  have hoff : ∀ p ∈ octa.v, ¬ OnPlane slant p := by
    intro p hp
    simp only [octa, List.mem_cons, List.not_mem_nil, or_false] at hp
    rcases hp with rfl | rfl | rfl | rfl | rfl | rfl <;> norm_num [onPlane_iff, slant, height, inner3, vec3]
  have he : CrossedEdge slant octa (0, 5) := by
    refine ⟨by norm_num, ⟨(2, 0, 5), by simp [octa], by decide⟩, ⟨1, 0, 0⟩, ⟨0, 0, -1⟩, rfl, rfl, ?_⟩
    norm_num [slant, height, inner3, vec3]
  obtain ⟨v, h1, h2⟩ := C131_solid .py3 pk ko slant octa hn hv hp hoff octa_closed octa_convex ⟨_, he⟩
  obtain ⟨v', h1', h3, -⟩ := (C131_one_loop .py3 pk ko slant octa hn hv hp hoff octa_closed octa_convex).2 ⟨_, he⟩
  rw [h1] at h1'
  cases h1'
  refine ⟨hn, hv, hp, hoff, octa_closed, octa_convex, he, v, h1, h3, (h2 _).mpr ⟨?_, ?_⟩⟩
  · norm_num [onPlane_iff, slant, height, inner3, vec3]
  · refine inHull_mix (p := ⟨1, 0, 0⟩) (q := ⟨-1, 0, 0⟩) (inHull_self (by simp [octa])) (inHull_self (by simp [octa])) (a := 1 / 2) (b := 1 / 2)
      (by norm_num) (by norm_num) (by norm_num) ?_ ?_ ?_ <;> norm_num

/-- the conditions of `C131_convexify` on the hull routine can be met for the section of the octahedron -/
example (pk : ℕ → Picker) (ko : ℕ → KeyOrder) : ∃ (v : List (V3 ℝ)) (env : HullEnv ℝ) (qs : List (V3 ℝ)) (i : Option (List ℕ)),
    slant.meshXsections .py3 pk ko octa = .ok [⟨v, true⟩] ∧
    convexify env (poly v true) false true (.seq slant.n) = .ok (poly qs true, i) ∧
    (poly qs true).totalLength = (poly v true).totalLength := by
  obtain ⟨hn, hv, hp, hoff, hcl, hcv, he, v', h1', l, -⟩ := C131_witness pk ko
  obtain ⟨v, h1, h2⟩ := C131_convexify .py3 pk ko slant octa hn hv hp hoff hcl hcv ⟨_, he⟩
  obtain ⟨_, h3, -, on⟩ := (C131_one_loop .py3 pk ko slant octa hn hv hp hoff hcl hcv).2 ⟨_, he⟩
  rw [h1] at h1' h3
  injection h1' with h1'; injection h1' with h1'; injection h1' with h1'; subst h1'
  injection h3 with h3; injection h3 with h3; injection h3 with h3; subst h3
  have hpl : ∀ p ∈ v, inner3 slant.n p = inner3 slant.n slant.r0 := fun p hp => inner_of_onPlane (on p hp)
  obtain ⟨idx, hidx⟩ := ConvexLoop.hull hn (argmax3_nonzero hn) hpl l
  obtain ⟨qs, i, a, -, c⟩ := h2 ⟨fun _ => .ok idx, fun _ => .error .ValueError, fun _ => .error .ValueError, fun _ => 1⟩ true (.seq slant.n)
    slant.n _ (.inl rfl) hn hpl idx rfl hidx
  exact ⟨v, _, qs, i, h1, a, c⟩

end Blmath.Props
