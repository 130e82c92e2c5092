import Verif.Proofs.F64
import Verif.Props.FloatPartition

/-!
Property C106: within a wide range of sizes, IEEE doubles with their limits (`F64`) compute what the theorems on rounded
arithmetic (`Rd rnd53`) say.
-/

namespace Blmath.Props
open Blmath.Geometry Blmath.Spec Blmath.Proofs Blmath.Vx

namespace FR

/-- a double that is zero or from 2^-58 to 2^80 in size -/
def Moderate (a : F64) : Prop := ∃ q : ℚ, a.val? = some q ∧ rndQ q = q ∧ (q = 0 ∨ 1 / 2 ^ 58 ≤ |q| ∧ |q| ≤ 2 ^ 80)

def ModerateV (v : V3 F64) : Prop := Moderate v.x ∧ Moderate v.y ∧ Moderate v.z

/-- the same number where there are no limits of range -/
noncomputable def wide (a : F64) : Rd rnd53 := ⟨((a.val?.getD 0 : ℚ) : ℝ)⟩

noncomputable def wideV (v : V3 F64) : V3 (Rd rnd53) := ⟨wide v.x, wide v.y, wide v.z⟩

/-- the double is finite and the same number -/
def Same (a : F64) (x : Rd rnd53) : Prop := ∃ q : ℚ, a.val? = some q ∧ x.val = q

def SameV (v : V3 F64) (w : V3 (Rd rnd53)) : Prop := Same v.x w.x ∧ Same v.y w.y ∧ Same v.z w.z

theorem same_of {e f : ℕ} {a : F64} {x : Rd rnd53} (h : Rep e f a x) : Same a x := h.1

theorem sameV_of {e f : ℕ} {v : V3 F64} {w : V3 (Rd rnd53)} (h : RepV e f v w) : SameV v w := ⟨h.1.1, h.2.1.1, h.2.2.1⟩

theorem moderate_rep {a : F64} (h : Moderate a) : Rep 110 80 a (wide a) := by
  obtain ⟨q, h1, h2, h3⟩ := h
  have hv : (wide a).val = (q : ℝ) := by unfold wide; rw [h1]; rfl
  have hs : rnd53 (q : ℝ) = q := by rw [rnd53_rat, h2]
  refine ⟨⟨q, h1, hv⟩, by rw [hv, hs], ?_, ?_⟩
  · rw [hv]
    rcases h3 with rfl | ⟨h3, _⟩
    · simp [Mult.zero]
    · have := (Rat.cast_le (K := ℝ)).mpr h3
      push_cast at this
      exact mult_of_stored (m := 58) hs this
  · rw [hv]
    rcases h3 with rfl | ⟨_, h3⟩
    · simp
    · have := (Rat.cast_le (K := ℝ)).mpr h3
      push_cast at this
      exact this

theorem moderate_repV {v : V3 F64} (h : ModerateV v) : RepV 110 80 v (wideV v) :=
  ⟨moderate_rep h.1, moderate_rep h.2.1, moderate_rep h.2.2⟩

theorem atol_rep : Rep 79 0 (defaultAtol : F64) (defaultAtol : Rd rnd53) := by
  unfold defaultAtol
  refine Rep.lit' (m := 27) ?_ ?_ (by norm_num) (by norm_num)
  · rw [abs_of_pos (by norm_num)]; norm_num
  · rw [abs_of_pos (by norm_num)]; norm_num

theorem close_same {e f : ℕ} {a : F64} {x : Rd rnd53} (h : Rep e f a x) :
    closeToZero a defaultAtol = closeToZero x defaultAtol := h.npAbs.le atol_rep

theorem almostZero_same {e f : ℕ} {v : V3 F64} {w : V3 (Rd rnd53)} (h : RepV e f v w) :
    almostZero v defaultAtol = almostZero w defaultAtol := by
  unfold almostZero
  rw [close_same h.1, close_same h.2.1, close_same h.2.2]

theorem almostZero_zero {w : V3 (Rd rnd53)} (h : Rd.vec w = ⟨0, 0, 0⟩) : almostZero w defaultAtol = true := by
  have hx : w.x.val = 0 := congrArg V3.x h
  have hy : w.y.val = 0 := congrArg V3.y h
  have hz : w.z.val = 0 := congrArg V3.z h
  have key : ∀ x : Rd rnd53, x.val = 0 → closeToZero x defaultAtol = true := fun x h0 => by
    have ha : (npAbs x).val = 0 := by unfold npAbs; split <;> simp [h0]
    unfold closeToZero
    rw [Rd.le_iff, ha]
    unfold defaultAtol
    rw [Rd.val_lit]
    exact (rnd53_pos (by norm_num)).le
  unfold almostZero
  rw [key _ hx, key _ hy, key _ hz]
  rfl

theorem sign_rep {e f : ℕ} {a : F64} {x : Rd rnd53} (h : Rep e f a x) : Same (npSign a) (npSign x) := by
  have l1 : Rep 0 0 (Num.lit 1 : F64) (Num.lit 1 : Rd rnd53) := by
    have := Rep.lit (k := 1) (f := 0) (by norm_num) (by norm_num)
    simpa using this
  have l2 : Rep 0 0 (Num.lit (-1) : F64) (Num.lit (-1) : Rd rnd53) := by
    have := Rep.lit (k := -1) (f := 0) (by norm_num) (by norm_num)
    simpa using this
  unfold npSign
  rw [Rep.zero'.lt h, h.lt Rep.zero', h.eq Rep.zero']
  split_ifs
  · exact same_of l1
  · exact same_of l2
  · exact same_of Rep.zero'
  · exact same_of h

/-! ### planes -/

/-- points of both kinds, or none -/
def SameO : Option (V3 F64) → Option (V3 (Rd rnd53)) → Prop
  | some p, some q => SameV p q
  | none, none => True
  | _, _ => False

/-- what the two planes have in common -/
def SamePlane (pl : Plane F64) (pl' : Plane (Rd rnd53)) : Prop :=
  SameV pl.n pl'.n ∧ ∀ x, ModerateV x → Same (pl.signedDistance1 x) (pl'.signedDistance1 (wideV x)) ∧
    Same (npSign (pl.signedDistance1 x)) (npSign (pl'.signedDistance1 (wideV x))) ∧
    SameV (pl.projectPoint x) (pl'.projectPoint (wideV x)) ∧
    ∀ y, ModerateV y → SameO (pl.lineXsection x y) (pl'.lineXsection (wideV x) (wideV y)) ∧
      SameO (pl.lineSegmentXsection x y) (pl'.lineSegmentXsection (wideV x) (wideV y))

theorem xsection_rep {pl : Plane F64} {pl' : Plane (Rd rnd53)} (h0 : RepV 110 80 pl.r0 pl'.r0) (hn : RepV 436 1 pl.n pl'.n)
    {p ray : V3 F64} {p' ray' : V3 (Rd rnd53)} (hp : RepV 110 80 p p') (hr : RepV 110 81 ray ray') :
    (pl.lineXsection p ray = none ∧ pl'.lineXsection p' ray' = none) ∨
    ∃ z z', pl.lineXsection p ray = some z ∧ pl'.lineXsection p' ray' = some z' ∧ RepV 793 713 z z' := by
  have hd := hr.dot hn (by norm_num) (by norm_num)
  have hq := (h0.sub hp (by norm_num) (by norm_num) (by norm_num)).dot hn (by norm_num) (by norm_num)
  unfold Plane.lineXsection Plane.normal Plane.referencePoint
  simp only
  rw [hd.eq Rep.zero']
  by_cases hz : Num.eq (V3.dot ray' pl'.n) (Num.lit 0 : Rd rnd53) = true
  · left
    rw [if_pos hz, if_pos hz]
    exact ⟨rfl, rfl⟩
  · right
    rw [if_neg hz, if_neg hz]
    have hne : (V3.dot ray' pl'.n).val ≠ 0 := by
      intro h; apply hz; rw [Rd.eq_iff, h, Rd.val_lit]; simp [rnd53_zero]
    have hdiv := hq.div hd hne (by norm_num) (by norm_num)
    have hs := RepV.smul hdiv hr (by norm_num) (by norm_num)
    exact ⟨_, _, rfl, rfl, (hs.add hp (by norm_num) (by norm_num) (by norm_num)).mono (by norm_num) (by norm_num)⟩

theorem samePlane {pl : Plane F64} {pl' : Plane (Rd rnd53)} (h0 : RepV 110 80 pl.r0 pl'.r0) (hn : RepV 436 1 pl.n pl'.n) :
    SamePlane pl pl' := by
  refine ⟨sameV_of hn, fun x hx => ?_⟩
  have hx := moderate_repV hx
  have hd : Rep 546 84 (pl.signedDistance1 x) (pl'.signedDistance1 (wideV x)) :=
    ((hx.dot hn (by norm_num) (by norm_num)).add (h0.dot hn (by norm_num) (by norm_num)).neg (by norm_num) (by norm_num)
      (by norm_num)).mono (by norm_num) (by norm_num)
  refine ⟨same_of hd, sign_rep hd, ?_, fun y hy => ?_⟩
  · exact sameV_of (hx.sub (RepV.smul hd hn (by norm_num) (by norm_num)) (by norm_num) (by norm_num) (by norm_num))
  · have hy := moderate_repV hy
    constructor
    · rcases xsection_rep h0 hn hx (hy.mono (by norm_num) (by norm_num) : RepV 110 81 y (wideV y)) with ⟨e1, e2⟩ | ⟨z, z', e1, e2, h⟩
      · rw [e1, e2]; trivial
      · rw [e1, e2]; exact sameV_of h
    · have hr : RepV 110 81 (y - x) (wideV y - wideV x) := hy.sub hx (by norm_num) (by norm_num) (by norm_num)
      unfold Plane.lineSegmentXsection
      rcases xsection_rep h0 hn hx hr with ⟨e1, e2⟩ | ⟨z, z', e1, e2, h⟩
      · rw [e1, e2]; trivial
      · rw [e1, e2]
        simp only
        have hob : Plane.outOfBounds z x y = Plane.outOfBounds z' (wideV x) (wideV y) := by
          unfold Plane.outOfBounds Plane.beyond Plane.below
          rw [hx.1.lt h.1, hy.1.lt h.1, hx.2.1.lt h.2.1, hy.2.1.lt h.2.1, hx.2.2.lt h.2.2, hy.2.2.lt h.2.2,
            h.1.lt hx.1, h.1.lt hy.1, h.2.1.lt hx.2.1, h.2.1.lt hy.2.1, h.2.2.lt hx.2.2, h.2.2.lt hy.2.2]
        rw [hob]
        split
        · trivial
        · exact sameV_of h

/-- the constructors fail together or give planes with the same results -/
def SameCtor (a : PyM (Plane F64)) (b : PyM (Plane (Rd rnd53))) : Prop :=
  (a = .error .ValueError ∧ b = .error .ValueError) ∨ ∃ pl pl', a = .ok pl ∧ b = .ok pl' ∧ SamePlane pl pl'

theorem ctor_rep {p n : V3 F64} {p' n' : V3 (Rd rnd53)} (hp : RepV 110 80 p p') (hn : RepV 220 163 n n') :
    SameCtor (Plane.mk' p n) (Plane.mk' p' n') := by
  unfold Plane.mk'
  rw [almostZero_same hn]
  by_cases hz : almostZero n' defaultAtol = true
  · left
    rw [if_pos hz, if_pos hz]
    exact ⟨rfl, rfl⟩
  · right
    rw [if_neg hz, if_neg hz]
    have hne : Rd.vec n' ≠ ⟨0, 0, 0⟩ := fun h => hz (almostZero_zero h)
    exact ⟨_, _, rfl, rfl, samePlane hp (hn.normalize hne (by norm_num) (by norm_num) (by norm_num))⟩

/-! ### sums -/

theorem sumL_rep {e f : ℕ} (he : e ≤ 1074) (hf : f + 54 ≤ 1023) : ∀ (xs : List F64) (ys : List (Rd rnd53)), List.Forall₂ (Rep e f) xs ys →
    ys.length ≤ 2 ^ 53 → Rep e (f + 53) (sumL xs) (sumL ys) ∧ |(sumL ys).val| ≤ ys.length * 2 ^ f
  | [], [], _, _ => by
    refine ⟨Rep.zero'.mono (by omega) (by omega), ?_⟩
    simp [sumL, rnd53_zero]
  | a :: xs, b :: ys, .cons h hs, hl => by
    simp only [List.length_cons] at hl
    obtain ⟨h1, h2⟩ := sumL_rep he hf xs ys hs (by omega)
    have hb : |(sumL (b :: ys)).val| ≤ ((b :: ys).length : ℝ) * 2 ^ f := by
      show |rnd53 (b.val + (sumL ys).val)| ≤ _
      have hfix : rnd53 (((ys.length + 1 : ℕ) : ℝ) * 2 ^ f) = ((ys.length + 1 : ℕ) : ℝ) * 2 ^ f := by
        have := rnd53_grid ((ys.length + 1 : ℕ) : ℤ) (f : ℤ) (by rw [abs_of_nonneg (by positivity)]; exact_mod_cast hl)
        rw [zpow_natCast] at this
        exact_mod_cast this
      have hsum : |b.val + (sumL ys).val| ≤ ((ys.length + 1 : ℕ) : ℝ) * 2 ^ f := by
        have := abs_add_le b.val (sumL ys).val
        have := h.2.2.2
        push_cast; linarith
      rw [List.length_cons]
      rw [abs_le] at hsum ⊢
      constructor
      · have := rnd53_mono hsum.1
        rwa [rnd53_neg, hfix] at this
      · have := rnd53_mono hsum.2
        rwa [hfix] at this
    refine ⟨?_, hb⟩
    have hadd := h.add h1 (by omega) (by omega) (by omega)
    refine (hadd.tight ?_).mono (by omega) le_rfl
    refine hb.trans ?_
    have : ((b :: ys).length : ℝ) ≤ 2 ^ 53 := by rw [List.length_cons]; exact_mod_cast hl
    rw [pow_add, mul_comm]
    exact mul_le_mul_of_nonneg_left this (by positivity)

end FR
open FR

/-- **C106.** What counts as moderate: zero, and every double from 2^-58 to 2^80 in size.  Here the numbers without limits of
range are the same numbers. -/
theorem C106_moderate : (∀ s, Moderate (.zero s)) ∧ (∀ q : ℚ, rndQ q = q → 1 / 2 ^ 58 ≤ |q| → |q| ≤ 2 ^ 80 → Moderate (.num q)) ∧
    ∀ a, Moderate a → Same a (wide a) :=
  ⟨fun _ => ⟨0, rfl, by simp [rndQ], Or.inl rfl⟩, fun q h1 h2 h3 => ⟨q, rfl, h1, Or.inr ⟨h2, h3⟩⟩, fun _ h => same_of (moderate_rep h)⟩

/-- **C106.** Sums, differences, dot and cross products and lengths of moderate vectors, and the tests for zero and collinear
vectors, are in IEEE doubles what they are without limits of range. -/
theorem C106_vectors (v w : V3 F64) (hv : ModerateV v) (hw : ModerateV w) :
    SameV (v + w) (wideV v + wideV w) ∧ SameV (v - w) (wideV v - wideV w) ∧ Same (V3.dot v w) (V3.dot (wideV v) (wideV w)) ∧
    SameV (V3.cross v w) (V3.cross (wideV v) (wideV w)) ∧ Same (V3.norm v) (V3.norm (wideV v)) ∧
    almostZero v defaultAtol = almostZero (wideV v) defaultAtol ∧
    almostCollinear v w defaultAtol = almostCollinear (wideV v) (wideV w) defaultAtol := by
  have hv := moderate_repV hv
  have hw := moderate_repV hw
  have hc := hv.cross hw (by norm_num) (by norm_num)
  exact ⟨sameV_of (hv.add hw (by norm_num) (by norm_num) (by norm_num)), sameV_of (hv.sub hw (by norm_num) (by norm_num) (by norm_num)),
    same_of (hv.dot hw (by norm_num) (by norm_num)), sameV_of hc, same_of (hv.norm (by norm_num) (by norm_num)), almostZero_same hv,
    close_same (hc.norm (by norm_num) (by norm_num))⟩

/-- **C106.** So are normalised vectors, projections and rejections onto a vector that is not zero. -/
theorem C106_directions (v w : V3 F64) (hv : ModerateV v) (hw : ModerateV w) (h0 : Rd.vec (wideV w) ≠ ⟨0, 0, 0⟩) :
    SameV (normalize3 w) (normalize3 (wideV w)) ∧ SameV (proj3 v w) (proj3 (wideV v) (wideV w)) ∧
    SameV (reject3 v w) (reject3 (wideV v) (wideV w)) := by
  have hv := moderate_repV hv
  have hw := moderate_repV hw
  have hn := hw.normalize h0 (by norm_num) (by norm_num) (by norm_num)
  have hp := RepV.smul (hv.dot hn (by norm_num) (by norm_num)) hn (by norm_num) (by norm_num)
  exact ⟨sameV_of hn, sameV_of hp, sameV_of (hv.sub hp (by norm_num) (by norm_num) (by norm_num))⟩

/-- **C106.** Planes from a point and a normal: construction fails together, and otherwise normals, signed distances, signs,
projections and intersections with lines and segments are the same for all moderate points. -/
theorem C106_plane (p n : V3 F64) (hp : ModerateV p) (hn : ModerateV n) :
    SameCtor (Plane.mk' p n) (Plane.mk' (wideV p) (wideV n)) :=
  ctor_rep (moderate_repV hp) ((moderate_repV hn).mono (by norm_num) (by norm_num))

/-- **C106.** The same for planes through three points and through two points along a vector. -/
theorem C106_plane_through (p q r : V3 F64) (hp : ModerateV p) (hq : ModerateV q) (hr : ModerateV r) :
    SameCtor (Plane.fromPoints p q r) (Plane.fromPoints (wideV p) (wideV q) (wideV r)) ∧
    SameCtor (Plane.fromPointsAndVector p q r) (Plane.fromPointsAndVector (wideV p) (wideV q) (wideV r)) := by
  have hp := moderate_repV hp
  have hq := moderate_repV hq
  have hr := moderate_repV hr
  have h1 := hq.sub hp (by norm_num) (by norm_num) (by norm_num)
  have h2 := hr.sub hp (by norm_num) (by norm_num) (by norm_num)
  exact ⟨ctor_rep hp ((h1.cross h2 (by norm_num) (by norm_num)).mono (by norm_num) (by norm_num)),
    ctor_rep hp ((h1.cross hr (by norm_num) (by norm_num)).mono (by norm_num) (by norm_num))⟩


namespace FR

theorem pairs_mem {P : Type} : ∀ (l : List P) (s : P × P), s ∈ pairs l → s.1 ∈ l ∧ s.2 ∈ l
  | [], _, h => by simp [pairs] at h
  | [_], _, h => by simp [pairs] at h
  | a :: b :: l, s, h => by
    simp only [pairs, List.mem_cons] at h
    rcases h with rfl | h
    · simp
    · have := pairs_mem (b :: l) s h
      exact ⟨List.mem_cons_of_mem _ this.1, List.mem_cons_of_mem _ this.2⟩

theorem chainSegs_mem {P : Type} {v : List P} {closed : Bool} {s : P × P} (h : s ∈ chainSegs v closed) : s.1 ∈ v ∧ s.2 ∈ v := by
  have hc : ∀ x ∈ circuit v closed, x ∈ v := fun x hx => by
    unfold circuit at hx
    rcases List.mem_append.mp hx with hx | hx
    · exact hx
    · cases closed
      · simp at hx
      · cases v <;> simp_all
  have := pairs_mem _ s h
  exact ⟨hc _ this.1, hc _ this.2⟩

theorem lengths_rep {v : List (V3 F64)} (hv : ∀ p ∈ v, ModerateV p) (closed : Bool) :
    List.Forall₂ (Rep 162 82) ((chainSegs v closed).map fun s => V3.norm (s.2 - s.1))
      ((chainSegs (v.map wideV) closed).map fun s => V3.norm (s.2 - s.1)) := by
  rw [chainSegs_map, List.map_map, List.forall₂_map_left_iff, List.forall₂_map_right_iff, List.forall₂_same]
  intro s hs
  obtain ⟨h1, h2⟩ := chainSegs_mem hs
  have := (moderate_repV (hv _ h2)).sub (moderate_repV (hv _ h1)) (by norm_num) (by norm_num) (by norm_num)
  exact (this.norm (by norm_num) (by norm_num)).mono (by norm_num) (by norm_num)

theorem lengths_ok {α : Type} [Num α] (v : List (V3 α)) (closed : Bool) :
    (poly v closed).segmentLengths = .ok ((chainSegs v closed).map fun s => V3.norm (s.2 - s.1)) ∧
    (poly v closed).totalLength = .ok (sumL ((chainSegs v closed).map fun s => V3.norm (s.2 - s.1))) := by
  have hs := segments_eq v closed
  constructor
  · simp [Polyline.segmentLengths, hs]; simp [poly]
  · simp [Polyline.totalLength, Polyline.segmentLengths, hs]; simp [poly]

/-- the vector that the doubles stand for -/
noncomputable def exactV (v : V3 F64) : V3 ℝ :=
  ⟨((v.x.val?.getD 0 : ℚ) : ℝ), ((v.y.val?.getD 0 : ℚ) : ℝ), ((v.z.val?.getD 0 : ℚ) : ℝ)⟩

theorem vec_wideV (v : V3 F64) : Rd.vec (wideV v) = exactV v := rfl

end FR
open FR

/-- **C106.** So are the lengths of the segments of a polyline with moderate vertices, and, up to 2^53 segments, the total
length. -/
theorem C106_lengths (v : List (V3 F64)) (closed : Bool) (hv : ∀ p ∈ v, ModerateV p) (hn : (chainSegs v closed).length ≤ 2 ^ 53) :
    ∃ ls ls' L L', (poly v closed).segmentLengths = .ok ls ∧ (poly (v.map wideV) closed).segmentLengths = .ok ls' ∧
      List.Forall₂ Same ls ls' ∧ (poly v closed).totalLength = .ok L ∧ (poly (v.map wideV) closed).totalLength = .ok L' ∧ Same L L' := by
  have hr := lengths_rep hv closed
  have hl : ((chainSegs (v.map wideV) closed).map fun s => V3.norm (s.2 - s.1)).length ≤ 2 ^ 53 := by
    rw [chainSegs_map]; simpa using hn
  exact ⟨_, _, _, _, (lengths_ok v closed).1, (lengths_ok _ closed).1, hr.imp fun _ _ h => same_of h, (lengths_ok v closed).2,
    (lengths_ok _ closed).2, same_of (sumL_rep (by norm_num) (by norm_num) _ _ hr hl).1⟩

/-- **C106.** Error bounds for true doubles, as consequences: the length of a moderate vector has relative error at most
`gam 2^-53 3`, its normalised vector has length 1 up to `gam 2^-53 4`. -/
theorem C106_length_error (v : V3 F64) (hv : ModerateV v) (h0 : exactV v ≠ ⟨0, 0, 0⟩) :
    (∃ r : ℚ, (V3.norm v).val? = some r ∧ |(r : ℝ) - len3 (exactV v)| ≤ gam (1 / 2 ^ 53) 3 * len3 (exactV v)) ∧
    (∃ n : V3 (Rd rnd53), SameV (normalize3 v) n) ∧ |len3 (exactV (normalize3 v)) - 1| ≤ gam (1 / 2 ^ 53) 4 := by
  have hr := moderate_repV hv
  obtain ⟨r, h1, h2⟩ := same_of (hr.norm (by norm_num) (by norm_num))
  have hn := hr.normalize h0 (by norm_num) (by norm_num) (by norm_num)
  refine ⟨⟨r, h1, ?_⟩, ⟨_, sameV_of hn⟩, ?_⟩
  · obtain ⟨t, ht, e⟩ := norm_rd rounding_rnd53 (wideV v)
    have := factor_err (x := len3 (exactV v)) rounding_rnd53 (by norm_num) ht
    rw [← h2, e, vec_wideV]
    rwa [abs_of_nonneg (len3_nonneg _)] at this
  · have he : exactV (normalize3 v) = Rd.vec (normalize3 (wideV v)) := by
      unfold exactV
      rw [hn.1.val_eq, hn.2.1.val_eq, hn.2.2.val_eq]
      rfl
    rw [he]
    exact C80_length rounding_rnd53 (by norm_num) (wideV v) h0

/-- **C106.** The signed distance of a moderate point from a plane made from moderate vectors is a double within
`gam 2^-53 8` times the distances from the origin of its exact value for the stored normal. -/
theorem C106_distance_error (p n x : V3 F64) (hp : ModerateV p) (hn : ModerateV n) (hx : ModerateV x) (pl : Plane F64)
    (h : Plane.mk' p n = .ok pl) :
    ∃ d : ℚ, (pl.signedDistance1 x).val? = some d ∧
      |(d : ℝ) - inner3 (vec3 (exactV p) (exactV x)) (exactV pl.n)| ≤ gam (1 / 2 ^ 53) 8 * (len3 (exactV x) + len3 (exactV p)) := by
  rcases C106_plane p n hp hn with ⟨e, _⟩ | ⟨q, q', e, e', hs⟩
  · rw [e] at h; cases h
  · rw [e] at h
    injection h with h
    subst h
    obtain ⟨d, h1, h2⟩ := (hs.2 x hx).1
    refine ⟨d, h1, ?_⟩
    have := C81_length rounding_rnd53 (by norm_num) (wideV p) (wideV n) (wideV x) q' e'
    rw [h2] at this
    have hnn : Rd.vec q'.n = exactV q.n := by
      obtain ⟨⟨a, a1, a2⟩, ⟨b, b1, b2⟩, ⟨c, c1, c2⟩⟩ := hs.1
      unfold exactV Rd.vec
      rw [a1, b1, c1, a2, b2, c2]; rfl
    have hr : Rd.vec q'.r0 = exactV p := by rw [(C80_plane rounding_rnd53 (by norm_num) _ _ q' e').1, vec_wideV]
    have hh : height (exactPlane q') (Rd.vec (wideV x)) = inner3 (vec3 (exactV p) (exactV x)) (exactV q.n) := by
      rw [vec_wideV]
      simp only [height, exactPlane, hnn, hr]
    rw [hh, vec_wideV, vec_wideV] at this
    exact this

/-- **C106.** The total length of a polyline with moderate vertices and `n` segments is a double with relative error at most
`gam 2^-53 (n + 4)`. -/
theorem C106_total_error (v : List (V3 F64)) (closed : Bool) (hv : ∀ p ∈ v, ModerateV p)
    (hn : (chainSegs v closed).length + 4 < 2 ^ 53) :
    ∃ (L : F64) (r : ℚ), (poly v closed).totalLength = .ok L ∧ L.val? = some r ∧
      |(r : ℝ) - pathLength (circuit (v.map exactV) closed)| ≤
        gam (1 / 2 ^ 53) ((chainSegs v closed).length + 4) * pathLength (circuit (v.map exactV) closed) := by
  obtain ⟨_, _, L, L', _, _, _, h1, h2, r, h3, h4⟩ := C106_lengths v closed hv (by omega)
  have hl : (chainSegs (v.map wideV) closed).length = (chainSegs v closed).length := by rw [chainSegs_map, List.length_map]
  obtain ⟨L'', h5, h6⟩ := C83_total_length rounding_rnd53 (v.map wideV) closed (by
    rw [hl, mul_one_div, div_lt_one (by positivity)]; exact_mod_cast hn)
  rw [h2] at h5
  injection h5 with h5
  subst h5
  rw [hl, h4, List.map_map] at h6
  exact ⟨L, r, h1, h3, h6⟩


/-! ### C107: outside the range -/

namespace FR

/-- the double is a number -/
def Finite (a : F64) : Prop := ∃ q : ℚ, a.val? = some q

def FiniteV (v : V3 F64) : Prop := Finite v.x ∧ Finite v.y ∧ Finite v.z

/-- infinite, or 2^512 or more in size -/
def Huge (a : F64) : Prop := (∃ s, a = .inf s) ∨ ∃ q : ℚ, a = .num q ∧ 2 ^ 512 ≤ |q|

def HugeV (v : V3 F64) : Prop := Huge v.x ∨ Huge v.y ∨ Huge v.z

/-- 2^-538 or less in size -/
def Tiny (a : F64) : Prop := ∃ q : ℚ, a.val? = some q ∧ |q| ≤ 1 / 2 ^ 538

/-- not NaN and no sign -/
def Plus (a : F64) : Prop := (∃ q : ℚ, a = .num q ∧ 0 ≤ q) ∨ a = .zero false ∨ a = .inf false

theorem rndQ_nonneg {q : ℚ} (h : 0 ≤ q) : 0 ≤ rndQ q := by
  have h1 : (0 : ℝ) ≤ rnd53 (q : ℝ) := by
    have := rnd53_mono (show (0 : ℝ) ≤ q by exact_mod_cast h)
    rwa [rnd53_zero] at this
  rw [rnd53_rat] at h1
  exact_mod_cast h1

theorem nearestEvenQ_nonneg {q : ℚ} (h : 0 ≤ q) : 0 ≤ nearestEvenQ q := by
  have hf : 0 ≤ ⌊q⌋ := Int.floor_nonneg.mpr h
  have hg : 0 ≤ ⌊q + 1 / 2⌋ := Int.floor_nonneg.mpr (by linarith)
  unfold nearestEvenQ
  split_ifs <;> omega

theorem plus_round {q : ℚ} (h : 0 ≤ q) : Plus (F64.round q) := by
  unfold F64.round
  have hn : decide (q < 0) = false := by simpa using h
  rw [hn]
  split_ifs
  · exact Or.inr (Or.inl rfl)
  · refine Or.inl ⟨_, rfl, ?_⟩
    have := nearestEvenQ_nonneg (show (0 : ℚ) ≤ q * 2 ^ 1074 by positivity)
    have : (0 : ℚ) ≤ nearestEvenQ (q * 2 ^ 1074) := by exact_mod_cast this
    positivity
  · exact Or.inr (Or.inr rfl)
  · exact Or.inl ⟨_, rfl, rndQ_nonneg h⟩

theorem plus_add {a b : F64} (ha : Plus a) (hb : Plus b) : Plus (a + b) := by
  show Plus (F64.add a b)
  rcases ha with ⟨q, rfl, hq⟩ | rfl | rfl <;> rcases hb with ⟨r, rfl, hr⟩ | rfl | rfl
  · exact plus_round (by positivity)
  · exact Or.inl ⟨q, rfl, hq⟩
  · exact Or.inr (Or.inr rfl)
  · exact Or.inl ⟨r, rfl, hr⟩
  · exact Or.inr (Or.inl rfl)
  · exact Or.inr (Or.inr rfl)
  · exact Or.inr (Or.inr rfl)
  · exact Or.inr (Or.inr rfl)
  · exact Or.inr (Or.inr rfl)

theorem plus_inf {a : F64} (ha : Plus a) : a + (.inf false : F64) = .inf false ∧ (.inf false : F64) + a = .inf false := by
  rcases ha with ⟨q, rfl, hq⟩ | rfl | rfl <;> exact ⟨rfl, rfl⟩

theorem plus_sq {a : F64} (h : a ≠ .nan) : Plus (a * a) := by
  show Plus (F64.mul a a)
  cases a with
  | num q => exact plus_round (mul_self_nonneg q)
  | zero s => right; left; simp [F64.mul, F64.signBit]
  | inf s => right; right; simp [F64.mul, F64.signBit]
  | nan => exact absurd rfl h

theorem huge_round {q : ℚ} (h : 2 ^ 1024 ≤ q) : F64.round q = .inf false := by
  have hq : (0 : ℚ) ≤ q := le_trans (by positivity) h
  have h1 : (2 : ℚ) ^ 1024 ≤ rndQ q := by
    have := rnd53_mono (show ((2 : ℝ) ^ 1024) ≤ q by exact_mod_cast h)
    have hp := rnd53_grid 1 1024 (by norm_num)
    rw [show ((1 : ℤ) : ℝ) * (2 : ℝ) ^ (1024 : ℤ) = 2 ^ 1024 by rw [show (1024 : ℤ) = ((1024 : ℕ) : ℤ) from rfl, zpow_natCast]; simp] at hp
    rw [hp, rnd53_rat] at this
    exact_mod_cast this
  unfold F64.round
  have hn : ¬ |q| < 1 / 2 ^ 1022 := by
    rw [abs_of_nonneg hq, not_lt]
    refine le_trans ?_ h
    exact le_trans (by rw [div_le_one (by positivity)]; exact one_le_pow₀ (by norm_num)) (one_le_pow₀ (M₀ := ℚ) (n := 1024) (by norm_num : (1 : ℚ) ≤ 2))
  rw [if_neg hn, if_pos (by rw [abs_of_nonneg (rndQ_nonneg hq)]; exact h1)]
  have : decide (q < 0) = false := by simpa using hq
  rw [this]

theorem huge_sq {a : F64} (h : Huge a) : a * a = .inf false := by
  rcases h with ⟨s, rfl⟩ | ⟨q, rfl, hq⟩
  · show F64.mul _ _ = _
    simp [F64.mul, F64.signBit]
  · show F64.round (q * q) = _
    apply huge_round
    rw [← abs_mul_abs_self]
    calc (2 : ℚ) ^ 1024 = 2 ^ 512 * 2 ^ 512 := by rw [← pow_add]
      _ ≤ _ := mul_le_mul hq hq (by positivity) (abs_nonneg _)

theorem norm_huge {v : V3 F64} (hx : v.x ≠ .nan) (hy : v.y ≠ .nan) (hz : v.z ≠ .nan) (h : HugeV v) : V3.norm v = .inf false := by
  have px := plus_sq hx
  have py := plus_sq hy
  have pz := plus_sq hz
  have e : V3.dot v v = .inf false := by
    show v.x * v.x + v.y * v.y + v.z * v.z = _
    rcases h with h | h | h
    · rw [huge_sq h, (plus_inf py).2, (plus_inf pz).2]
    · rw [huge_sq h, (plus_inf px).1, (plus_inf pz).2]
    · rw [huge_sq h, (plus_inf (plus_add px py)).1]
  unfold V3.norm
  rw [e]
  rfl

theorem finite_ne {a : F64} (h : Finite a) : a ≠ .nan := by
  rintro rfl
  obtain ⟨q, h⟩ := h
  cases h

theorem div_inf {a : F64} (h : Finite a) : ∃ s, a / (.inf false : F64) = .zero s := by
  obtain ⟨q, h⟩ := h
  cases a with
  | num q => exact ⟨_, rfl⟩
  | zero s => exact ⟨_, rfl⟩
  | inf s => cases h
  | nan => cases h

theorem tiny_sq {a : F64} (h : Tiny a) : a * a = .zero false := by
  obtain ⟨q, h, hq⟩ := h
  cases a with
  | num r =>
    have hr : r = q := by simpa [F64.val?] using h
    subst hr
    have h2 : r * r ≤ 1 / 2 ^ 1076 := by
      rw [← abs_mul_abs_self]
      calc |r| * |r| ≤ 1 / 2 ^ 538 * (1 / 2 ^ 538) := mul_le_mul hq hq (abs_nonneg _) (by positivity)
        _ = 1 / 2 ^ 1076 := by rw [div_mul_div_comm, ← pow_add, one_mul]
    have h3 : r * r * 2 ^ 1074 ≤ 1 / 4 := by
      calc r * r * 2 ^ 1074 ≤ 1 / 2 ^ 1076 * 2 ^ 1074 := mul_le_mul_of_nonneg_right h2 (by positivity)
        _ = 1 / 4 := by rw [show 1076 = 1074 + 2 from rfl, pow_add]; field_simp; norm_num
    have h4 : nearestEvenQ (r * r * 2 ^ 1074) = 0 := by
      have h0 : (0 : ℚ) ≤ r * r * 2 ^ 1074 := mul_nonneg (mul_self_nonneg r) (by positivity)
      generalize r * r * 2 ^ 1074 = t at h0 h3 ⊢
      have hf : ⌊t⌋ = 0 := by rw [Int.floor_eq_zero_iff]; exact ⟨h0, by linarith⟩
      unfold nearestEvenQ
      rw [hf]
      have hfr : Int.fract t = t := by rw [← Int.self_sub_floor, hf]; simp
      have hg : ⌊t + 1 / 2⌋ = 0 := by rw [Int.floor_eq_zero_iff]; exact ⟨by linarith, by linarith⟩
      rw [hfr, if_neg (by intro h; linarith)]
      exact hg
    show F64.round (r * r) = _
    unfold F64.round
    rw [if_pos, if_pos h4]
    · have : decide (r * r < 0) = false := by simpa using mul_self_nonneg r
      rw [this]
    · rw [abs_of_nonneg (mul_self_nonneg r)]
      refine lt_of_le_of_lt h2 ?_
      apply one_div_lt_one_div_of_lt (by positivity)
      exact pow_lt_pow_right₀ (by norm_num) (by norm_num)
  | zero s => show F64.mul _ _ = _; simp [F64.mul, F64.signBit]
  | inf s => cases h
  | nan => cases h

/-- the outcome of dividing by a length of zero -/
def OverZero (a b : F64) : Prop := (∀ q, a = .num q → b = .inf (decide (q < 0))) ∧ (∀ s, a = .zero s → b = .nan)

theorem overZero {a : F64} (h : Finite a) : OverZero a (a / (.zero false : F64)) := by
  obtain ⟨q, h⟩ := h
  constructor
  · rintro q rfl
    show F64.div _ _ = _
    simp [F64.div, F64.signBit]
  · rintro s rfl; rfl

theorem huge_not_close {a : F64} (h : Huge a) (hf : Finite a) : closeToZero a defaultAtol = false := by
  obtain ⟨r, hr⟩ := hf
  rcases h with ⟨s, rfl⟩ | ⟨q, rfl, hq⟩
  · cases hr
  · obtain ⟨t, ht, hv⟩ := atol_rep.1
    have hb := atol_rep.2.2.2
    rw [hv, pow_zero] at hb
    have hb : t ≤ 1 := by
      have := (le_abs_self _).trans hb
      exact_mod_cast this
    have ha : ∃ q', npAbs (F64.num q) = .num q' ∧ 2 ^ 512 ≤ q' := by
      have hz : (Num.lit 0 : F64) = .zero false := by
        show F64.round 0 = _
        unfold F64.round
        rw [if_pos (by rw [abs_zero]; positivity), if_pos (by rw [zero_mul]; exact_mod_cast nearestEvenQ_int 0)]
        rfl
      have hlt : Num.lt (F64.num q) (Num.lit 0 : F64) = decide (q < 0) := by rw [hz]; rfl
      unfold npAbs
      rw [hlt]
      by_cases h0 : q < 0
      · rw [if_pos (by simpa using h0)]
        exact ⟨-q, rfl, by rwa [abs_of_neg h0] at hq⟩
      · rw [if_neg (by simpa using h0)]
        exact ⟨q, rfl, by rwa [abs_of_nonneg (not_lt.mp h0)] at hq⟩
    obtain ⟨q', e, hq'⟩ := ha
    have hgt : t < q' := lt_of_le_of_lt hb (lt_of_lt_of_le (one_lt_pow₀ (by norm_num) (by norm_num)) hq')
    unfold closeToZero
    rw [e]
    show (F64.lt _ _ || F64.eq _ _) = false
    generalize (defaultAtol : F64) = d at ht
    cases d with
    | num x =>
      have : x = t := by simpa [F64.val?] using ht
      subst this
      simp [F64.lt, F64.eq, F64.val?, hgt.ne', not_lt.mpr hgt.le]
    | zero s =>
      have : 0 = t := by simpa [F64.val?] using ht
      subst this
      simp [F64.lt, F64.eq, F64.val?, hgt.ne', not_lt.mpr hgt.le]
    | inf s => cases ht
    | nan => cases ht

/-- products with a zero, sums of zeros -/
theorem mul_zero' {a : F64} (h : Finite a) (s : Bool) : ∃ t, a * (.zero s : F64) = .zero t := by
  obtain ⟨q, h⟩ := h
  cases a with
  | num q => exact ⟨_, rfl⟩
  | zero s => exact ⟨_, rfl⟩
  | inf s => cases h
  | nan => cases h

theorem dot_zero {v n : V3 F64} (hv : FiniteV v) {a b c : Bool} (hn : n = ⟨.zero a, .zero b, .zero c⟩) : ∃ t, V3.dot v n = .zero t := by
  subst hn
  obtain ⟨t1, h1⟩ := mul_zero' hv.1 a
  obtain ⟨t2, h2⟩ := mul_zero' hv.2.1 b
  obtain ⟨t3, h3⟩ := mul_zero' hv.2.2 c
  refine ⟨(t1 && t2) && t3, ?_⟩
  show v.x * _ + v.y * _ + v.z * _ = _
  simp only [h1, h2, h3]
  rfl

end FR
open FR

/-- **C107.** A finite vector with a coordinate of 2^512 or more has infinite length; normalised, it becomes the zero vector,
and no error or NaN shows it. -/
theorem C107_overflow (v : V3 F64) (hf : FiniteV v) (h : HugeV v) :
    V3.norm v = .inf false ∧ ∃ a b c, normalize3 v = ⟨.zero a, .zero b, .zero c⟩ := by
  have hn := norm_huge (finite_ne hf.1) (finite_ne hf.2.1) (finite_ne hf.2.2) h
  obtain ⟨a, ha⟩ := div_inf hf.1
  obtain ⟨b, hb⟩ := div_inf hf.2.1
  obtain ⟨c, hc⟩ := div_inf hf.2.2
  refine ⟨hn, a, b, c, ?_⟩
  show (⟨v.x / V3.norm v, v.y / V3.norm v, v.z / V3.norm v⟩ : V3 F64) = _
  rw [hn, ha, hb, hc]

/-- **C107.** A vector whose coordinates are all 2^-538 or less has length zero; normalised, its coordinates become infinite,
or NaN where they were zero. -/
theorem C107_underflow (v : V3 F64) (hx : Tiny v.x) (hy : Tiny v.y) (hz : Tiny v.z) :
    V3.norm v = .zero false ∧ OverZero v.x (normalize3 v).x ∧ OverZero v.y (normalize3 v).y ∧ OverZero v.z (normalize3 v).z := by
  have hn : V3.norm v = .zero false := by
    have : V3.dot v v = .zero false := by
      show v.x * v.x + v.y * v.y + v.z * v.z = _
      rw [tiny_sq hx, tiny_sq hy, tiny_sq hz]; rfl
    unfold V3.norm
    rw [this]; rfl
  have fin : ∀ a, Tiny a → Finite a := fun a ⟨q, h, _⟩ => ⟨q, h⟩
  refine ⟨hn, ?_, ?_, ?_⟩
  · show OverZero v.x (v.x / V3.norm v); rw [hn]; exact overZero (fin _ hx)
  · show OverZero v.y (v.y / V3.norm v); rw [hn]; exact overZero (fin _ hy)
  · show OverZero v.z (v.z / V3.norm v); rw [hn]; exact overZero (fin _ hz)

/-- **C107.** `Plane` accepts such a long normal and stores the zero vector: every finite point then has signed distance and
sign zero, and no line meets the plane. -/
theorem C107_plane (p n : V3 F64) (hp : FiniteV p) (hf : FiniteV n) (h : HugeV n) :
    ∃ pl a b c, Plane.mk' p n = .ok pl ∧ pl.r0 = p ∧ pl.n = ⟨.zero a, .zero b, .zero c⟩ ∧
      ∀ x, FiniteV x → (∃ s, pl.signedDistance1 x = .zero s) ∧ npSign (pl.signedDistance1 x) = .zero false ∧
        ∀ r, FiniteV r → pl.lineXsection x r = none := by
  have hz : almostZero n defaultAtol = false := by
    unfold almostZero
    rcases h with h | h | h
    · rw [huge_not_close h hf.1]; rfl
    · rw [huge_not_close h hf.2.1]; simp
    · rw [huge_not_close h hf.2.2]; simp
  have hlit : (Num.lit 0 : F64) = .zero false := by
    show F64.round 0 = _
    unfold F64.round
    rw [if_pos (by rw [abs_zero]; positivity), if_pos (by rw [zero_mul]; exact_mod_cast nearestEvenQ_int 0)]
    rfl
  obtain ⟨_, a, b, c, hn⟩ := C107_overflow n hf h
  refine ⟨⟨p, normalize3 n⟩, a, b, c, ?_, rfl, hn, fun x hx => ?_⟩
  · unfold Plane.mk'
    rw [hz]; rfl
  · obtain ⟨t1, h1⟩ := dot_zero hx hn
    obtain ⟨t2, h2⟩ := dot_zero hp hn
    have hs : (Plane.signedDistance1 ⟨p, normalize3 n⟩ x : F64) = .zero (t1 && !t2) := by
      show V3.dot x (normalize3 n) + -(V3.dot p (normalize3 n)) = _
      rw [h1, h2]; rfl
    refine ⟨⟨_, hs⟩, ?_, fun r hr => ?_⟩
    · rw [hs]
      unfold npSign
      rw [hlit]
      rfl
    · obtain ⟨t3, h3⟩ := dot_zero hr hn
      unfold Plane.lineXsection Plane.normal
      simp only
      rw [h3, hlit]
      rfl


namespace FR

theorem round_ne_nan (q : ℚ) : F64.round q ≠ .nan := by
  unfold F64.round; split_ifs <;> simp

theorem sub_cases {a b : F64} (ha : Finite a) (hb : Finite b) :
    a - b ≠ .nan ∧ ((2 : ℚ) ^ 512 ≤ |a.val?.getD 0 - b.val?.getD 0| → Huge (a - b)) := by
  obtain ⟨q, ha⟩ := ha
  obtain ⟨r, hb⟩ := hb
  have key : ∀ x : ℚ, 2 ^ 512 ≤ |x| → Huge (F64.round x) := fun x hx => by
    have h1 : (2 : ℚ) ^ 512 ≤ |rndQ x| := by
      have := rnd53_abs_ge' (show (2 : ℝ) ^ 512 ≤ |(x : ℝ)| by exact_mod_cast hx)
      rw [rnd53_rat] at this
      exact_mod_cast this
    unfold F64.round
    rw [if_neg (by
      rw [not_lt]
      exact le_trans (le_trans (by rw [div_le_one (by positivity)]; exact one_le_pow₀ (by norm_num))
        (one_le_pow₀ (M₀ := ℚ) (n := 512) (by norm_num : (1 : ℚ) ≤ 2))) hx)]
    split_ifs
    · exact Or.inl ⟨_, rfl⟩
    · exact Or.inr ⟨_, rfl, h1⟩
  have hp : (0 : ℚ) < 2 ^ 512 := by positivity
  cases a <;> cases b <;> first | cases ha; done | cases hb; done | skip
  · rename_i x y
    show F64.round (x + -y) ≠ _ ∧ (_ → Huge (F64.round (x + -y)))
    exact ⟨round_ne_nan _, fun h => key _ (by rwa [← sub_eq_add_neg])⟩
  · rename_i x s
    refine ⟨by show F64.num x ≠ _; simp, fun h => ?_⟩
    exact Or.inr ⟨x, rfl, by simpa [F64.val?] using h⟩
  · rename_i s y
    refine ⟨by show F64.num (-y) ≠ _; simp, fun h => ?_⟩
    exact Or.inr ⟨-y, rfl, by simpa [F64.val?] using h⟩
  · rename_i s t
    refine ⟨by show F64.zero _ ≠ _; simp, fun h => ?_⟩
    simp [F64.val?] at h
    exact absurd h (not_le.mpr hp)

theorem plus_sumL : ∀ l : List F64, (∀ a ∈ l, Plus a) → Plus (sumL l) ∧ (.inf false ∈ l → sumL l = .inf false)
  | [], _ => ⟨plus_round le_rfl, by simp⟩
  | a :: l, h => by
    obtain ⟨h1, h2⟩ := plus_sumL l fun b hb => h b (by simp [hb])
    have ha := h a (by simp)
    refine ⟨plus_add ha h1, fun hm => ?_⟩
    show a + sumL l = _
    rcases List.mem_cons.mp hm with hm | hm
    · rw [← hm, (plus_inf h1).2]
    · rw [h2 hm, (plus_inf ha).1]

theorem sqrtQ_nonneg (q : ℚ) : 0 ≤ sqrtQ q := by
  have h1 : (0 : ℝ) ≤ rnd53 (√(q : ℝ)) := by
    have := rnd53_mono (Real.sqrt_nonneg (q : ℝ))
    rwa [rnd53_zero] at this
  rw [rnd53_sqrt] at h1
  exact_mod_cast h1

theorem plus_norm {v : V3 F64} (hx : v.x ≠ .nan) (hy : v.y ≠ .nan) (hz : v.z ≠ .nan) : Plus (V3.norm v) := by
  have : Plus (V3.dot v v) := plus_add (plus_add (plus_sq hx) (plus_sq hy)) (plus_sq hz)
  unfold V3.norm
  show Plus (F64.sqrt _)
  rcases this with ⟨q, e, hq⟩ | e | e
  · rw [e]
    show Plus (if q < 0 then .nan else .num (sqrtQ q))
    rw [if_neg (not_lt.mpr hq)]
    exact Or.inl ⟨_, rfl, sqrtQ_nonneg q⟩
  · rw [e]; exact Or.inr (Or.inl rfl)
  · rw [e]; exact Or.inr (Or.inr rfl)

/-- some coordinates of the two points are 2^512 or more apart -/
def FarApart (a b : V3 F64) : Prop :=
  (2 : ℝ) ^ 512 ≤ |(exactV b).x - (exactV a).x| ∨ (2 : ℝ) ^ 512 ≤ |(exactV b).y - (exactV a).y| ∨
    (2 : ℝ) ^ 512 ≤ |(exactV b).z - (exactV a).z|

end FR
open FR

/-- **C107.** A polyline of finite vertices with a segment that spans 2^512 or more along an axis has infinite total length,
without any error. -/
theorem C107_length (v : List (V3 F64)) (closed : Bool) (hf : ∀ p ∈ v, FiniteV p) (h : ∃ s ∈ chainSegs v closed, FarApart s.1 s.2) :
    (poly v closed).totalLength = .ok (.inf false) := by
  rw [(lengths_ok v closed).2]
  congr 1
  apply (plus_sumL _ ?_).2
  · obtain ⟨s, hs, ha⟩ := h
    obtain ⟨h1, h2⟩ := chainSegs_mem hs
    have f1 := hf _ h1
    have f2 := hf _ h2
    refine List.mem_map.mpr ⟨s, hs, norm_huge (sub_cases f2.1 f1.1).1 (sub_cases f2.2.1 f1.2.1).1 (sub_cases f2.2.2 f1.2.2).1 ?_⟩
    rcases ha with ha | ha | ha
    · exact Or.inl ((sub_cases f2.1 f1.1).2 (by simp only [exactV] at ha; exact_mod_cast ha))
    · exact Or.inr (Or.inl ((sub_cases f2.2.1 f1.2.1).2 (by simp only [exactV] at ha; exact_mod_cast ha)))
    · exact Or.inr (Or.inr ((sub_cases f2.2.2 f1.2.2).2 (by simp only [exactV] at ha; exact_mod_cast ha)))
  · intro a ha
    obtain ⟨s, hs, rfl⟩ := List.mem_map.mp ha
    obtain ⟨h1, h2⟩ := chainSegs_mem hs
    have f1 := hf _ h1
    have f2 := hf _ h2
    exact plus_norm (sub_cases f2.1 f1.1).1 (sub_cases f2.2.1 f1.2.1).1 (sub_cases f2.2.2 f1.2.2).1

/-! ### cases -/

namespace FR

def ePt : V3 F64 := ⟨.num (-3 / 2), .zero true, .num 1000000⟩
def eN : V3 F64 := ⟨.num 3, .num (1 / 1024), .zero false⟩
def eBig : V3 F64 := ⟨.num (2 ^ 513), .num 1, .zero false⟩
def eSmall : V3 F64 := ⟨.num (-1 / 2 ^ 540), .zero false, .num (1 / 2 ^ 600)⟩

theorem eMod : ModerateV ePt ∧ ModerateV eN := by
  refine ⟨⟨⟨-3 / 2, rfl, by decide +kernel, Or.inr ⟨by decide +kernel, by decide +kernel⟩⟩, ⟨0, rfl, by decide +kernel, Or.inl rfl⟩,
    ⟨1000000, rfl, by decide +kernel, Or.inr ⟨by decide +kernel, by decide +kernel⟩⟩⟩,
    ⟨⟨3, rfl, by decide +kernel, Or.inr ⟨by decide +kernel, by decide +kernel⟩⟩,
    ⟨1 / 1024, rfl, by decide +kernel, Or.inr ⟨by decide +kernel, by decide +kernel⟩⟩, ⟨0, rfl, by decide +kernel, Or.inl rfl⟩⟩⟩

end FR
open FR

/-- **C106**, a case: moderate vectors, with a negative zero, from which a plane is made. -/
theorem C106_witness : ModerateV ePt ∧ ModerateV eN ∧ exactV eN ≠ ⟨0, 0, 0⟩ ∧ (∃ pl, Plane.mk' ePt eN = .ok pl) := by
  refine ⟨eMod.1, eMod.2, fun h => ?_, ?_⟩
  · have := congrArg V3.x h
    simp [exactV, eN, F64.val?] at this
  · unfold Plane.mk'
    rw [if_neg (by decide +kernel)]
    exact ⟨_, rfl⟩

/-- **C107**, cases: vectors too long and too short. -/
theorem C107_witness : FiniteV eBig ∧ HugeV eBig ∧ (Tiny eSmall.x ∧ Tiny eSmall.y ∧ Tiny eSmall.z) ∧
    normalize3 eBig = ⟨.zero false, .zero false, .zero false⟩ ∧ normalize3 eSmall = ⟨.inf true, .nan, .inf false⟩ ∧
    FarApart ePt eBig := by
  refine ⟨⟨⟨_, rfl⟩, ⟨_, rfl⟩, ⟨_, rfl⟩⟩, Or.inl (Or.inr ⟨_, rfl, by decide +kernel⟩),
    ⟨⟨_, rfl, by decide +kernel⟩, ⟨_, rfl, by decide +kernel⟩, ⟨_, rfl, by decide +kernel⟩⟩, by decide +kernel, by decide +kernel, Or.inl ?_⟩
  simp only [exactV, eBig, ePt, F64.val?, Option.getD_some]
  rw [le_abs]
  left
  push_cast
  have : (1 : ℝ) ≤ 2 ^ 512 := one_le_pow₀ (by norm_num)
  rw [show (2 : ℝ) ^ 513 = 2 ^ 512 * 2 from pow_succ _ _]
  generalize (2 : ℝ) ^ 512 = t at this ⊢
  linarith

end Blmath.Props
