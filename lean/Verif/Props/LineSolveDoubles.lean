import Verif.Props.LineSolve
import Verif.Props.FloatRange

/-!
Property C150 for IEEE doubles: `line_intersect` of lines whose coordinates are of moderate size, with the limits of range.
-/

namespace Blmath.Props
open Blmath.Geometry Blmath.Spec Blmath.Proofs LU FR

namespace LU

def Moderate2 (p : V2 F64) : Prop := Moderate p.1 ∧ Moderate p.2

/-- the same point where there are no limits of range -/
noncomputable def wide2 (p : V2 F64) : V2 (Rd rnd53) := (wide p.1, wide p.2)

/-- the point that two finite doubles stand for -/
noncomputable def pt64 (p : V2 F64) : ℝ × ℝ := ((p.1.val?.getD 0 : ℚ), (p.2.val?.getD 0 : ℚ))

/-- both coordinates are numbers -/
def Finite2 (p : V2 F64) : Prop := p.1.val?.isSome = true ∧ p.2.val?.isSome = true

/-- neither or both raise `LinAlgError`, and points are the same -/
def Alike (s : PyM (V2 F64)) (t : PyM (V2 (Rd rnd53))) : Prop :=
  (s = .error .LinAlgError ∧ t = .error .LinAlgError) ∨ ∃ x y, s = .ok x ∧ t = .ok y ∧ Same x.1 y.1 ∧ Same x.2 y.2

theorem sfmin_rep : Rep 1074 0 (sfmin : F64) (sfmin : Rd rnd53) := by
  unfold sfmin
  refine Rep.lit' (m := 1022) ?_ ?_ (by norm_num) (by norm_num)
  · push_cast; rw [abs_of_pos (by positivity)]
  · push_cast
    rw [abs_of_pos (by positivity), div_le_iff₀ (by positivity), pow_zero, one_mul]
    exact one_le_pow₀ (by norm_num)

theorem eliminate_alike {a b c d r s : F64} {a' b' c' d' r' s' : Rd rnd53} (ha : Rep 110 81 a a') (hb : Rep 110 81 b b') (hc : Rep 110 81 c c')
    (hd : Rep 110 81 d d') (hr : Rep 220 162 r r') (hs : Rep 220 162 s s') (hac : |c'.val| ≤ |a'.val|) :
    Alike (eliminate a b c d r s) (eliminate a' b' c' d' r' s') := by
  have hu : (1 : ℝ) / 2 ^ 53 ≤ 1 / 1000 := by norm_num
  have z0 : (Num.lit 0 : Rd rnd53).val = 0 := by rw [Rd.val_lit]; push_cast; exact zero rounding_rnd53
  have l1 : Rep 0 0 (Num.lit 1 : F64) (Num.lit 1 : Rd rnd53) := by
    have := Rep.lit (k := 1) (f := 0) (by norm_num) (by norm_num)
    simpa using this
  unfold eliminate
  rw [ha.eq Rep.zero']
  split
  · exact Or.inl ⟨rfl, rfl⟩
  · rename_i h1
    rw [Rd.eq_iff, z0] at h1
    obtain ⟨ε, hε, hl, hl1⟩ := multiplier rounding_rnd53 hu a' c' h1 hac
    dsimp only
    have hlr : Rep 243 1 (if Num.lt (npAbs a) sfmin = true then c / a else c * (Num.lit 1 / a))
        (if Num.lt (npAbs a') sfmin = true then c' / a' else c' * (Num.lit 1 / a')) := by
      refine Rep.tight (f := 191) ?_ (hl1.trans (by norm_num))
      rw [(ha.npAbs).lt sfmin_rep]
      split
      · exact (hc.div ha h1 (by norm_num) (by norm_num)).mono (by norm_num) (by norm_num)
      · exact (hc.mul (l1.div ha h1 (by norm_num) (by norm_num)) (by norm_num) (by norm_num)).mono (by norm_num) (by norm_num)
    generalize (if Num.lt (npAbs a) sfmin = true then c / a else c * (Num.lit 1 / a)) = l at hlr ⊢
    generalize (if Num.lt (npAbs a') sfmin = true then c' / a' else c' * (Num.lit 1 / a')) = l' at hlr ⊢
    have hU : Rep 353 83 (d - l * b) (d' - l' * b') :=
      (hd.sub (hlr.mul hb (by norm_num) (by norm_num)) (by norm_num) (by norm_num) (by norm_num)).mono (by norm_num) (by norm_num)
    rw [hU.eq Rep.zero']
    split
    · exact Or.inl ⟨rfl, rfl⟩
    · rename_i h2
      rw [Rd.eq_iff, z0] at h2
      have hy : Rep 463 164 (s - l * r) (s' - l' * r') :=
        (hs.sub (hlr.mul hr (by norm_num) (by norm_num)) (by norm_num) (by norm_num) (by norm_num)).mono (by norm_num) (by norm_num)
      have hx2 : Rep 598 517 ((s - l * r) / (d - l * b)) ((s' - l' * r') / (d' - l' * b')) :=
        (hy.div hU h2 (by norm_num) (by norm_num)).mono (by norm_num) (by norm_num)
      have hbx : Rep 708 599 (r - b * ((s - l * r) / (d - l * b))) (r' - b' * ((s' - l' * r') / (d' - l' * b'))) :=
        (hr.sub (hb.mul hx2 (by norm_num) (by norm_num)) (by norm_num) (by norm_num) (by norm_num)).mono (by norm_num) (by norm_num)
      have hx1 := hbx.div ha h1 (by norm_num) (by norm_num)
      exact Or.inr ⟨_, _, rfl, rfl, same_of hx1, same_of hx2⟩

theorem lineSolve_alike {p0 q0 p1 q1 : V2 F64} (h0 : Moderate2 p0) (g0 : Moderate2 q0) (h1 : Moderate2 p1) (g1 : Moderate2 q1) :
    Alike (lineSolve p0 q0 p1 q1) (lineSolve (wide2 p0) (wide2 q0) (wide2 p1) (wide2 q1)) := by
  have sub : ∀ {a b : F64}, Moderate a → Moderate b → Rep 110 81 (a - b) (wide a - wide b) := fun ha hb =>
    ((moderate_rep ha).sub (moderate_rep hb) (by norm_num) (by norm_num) (by norm_num)).mono (by norm_num) (by norm_num)
  have row : ∀ {p q : V2 F64}, Moderate2 p → Moderate2 q → Rep 220 162 (p.2 * (q.1 - p.1) - (q.2 - p.2) * p.1)
      (wide p.2 * (wide q.1 - wide p.1) - (wide q.2 - wide p.2) * wide p.1) := fun {p q} hp hq =>
    (((moderate_rep hp.2).mul (sub hq.1 hp.1) (by norm_num) (by norm_num)).sub ((sub hq.2 hp.2).mul (moderate_rep hp.1) (by norm_num) (by norm_num))
      (by norm_num) (by norm_num) (by norm_num)).mono (by norm_num) (by norm_num)
  unfold lineSolve gesv2
  dsimp only [wide2]
  have y0 := (sub g0.2 h0.2).neg
  have y1 := (sub g1.2 h1.2).neg
  rw [y0.npAbs.lt y1.npAbs]
  split
  · rename_i hp
    rw [Rd.lt_iff, npAbs_rd rounding_rnd53, npAbs_rd rounding_rnd53] at hp
    exact eliminate_alike y1 (sub g1.1 h1.1) y0 (sub g0.1 h0.1) (row h1 g1) (row h0 g0) hp.le
  · rename_i hp
    rw [Rd.lt_iff, npAbs_rd rounding_rnd53, npAbs_rd rounding_rnd53, not_lt] at hp
    exact eliminate_alike y0 (sub g0.1 h0.1) y1 (sub g1.1 h1.1) (row h0 g0) (row h1 g1) hp

theorem pt64_same {x : V2 F64} {y : V2 (Rd rnd53)} (h1 : Same x.1 y.1) (h2 : Same x.2 y.2) : pt y = pt64 x ∧ Finite2 x := by
  obtain ⟨a, ha, ha'⟩ := h1
  obtain ⟨b, hb, hb'⟩ := h2
  exact ⟨by simp [pt, pt64, ha, ha', hb, hb'], by simp [Finite2, ha, hb]⟩

theorem pt_wide2 (p : V2 F64) : pt (wide2 p) = pt64 p := rfl

theorem nan_eq : (Num.lit 0 / Num.lit 0 : F64) = .nan := by decide +kernel

end LU

/-- **C150.** In IEEE doubles, with coordinates that are zero or from 2^-58 to 2^80 in size, `line_intersect` raises nothing and returns either
two NaNs, and then the lines are nearly parallel, or two numbers, and then the point lies on both lines up to the roundings. -/
theorem C150_double {p0 q0 p1 q1 : V2 F64} {D M : ℝ} (h0 : Moderate2 p0) (g0 : Moderate2 q0) (h1 : Moderate2 p1) (g1 : Moderate2 q1)
    (m0 : Size2 M (pt64 p0)) (m1 : Size2 M (pt64 p1)) (d0 : Size2 D (pt64 q0 - pt64 p0)) (d1 : Size2 D (pt64 q1 - pt64 p1)) :
    ∃ x, lineIntersectLu p0 q0 p1 q1 = .ok x ∧
      (x = (.nan, .nan) ∧ |steer (pt64 p0) (pt64 q0) (pt64 p1) (pt64 q1)| ≤ 8 * (1 / 2 ^ 53) * (D * D) ∨
        Finite2 x ∧ ∀ X, Size2 X (pt64 x) → |turn2 (pt64 p0) (pt64 q0) (pt64 x)| ≤ 17 * (1 / 2 ^ 53) * D * (X + M) ∧
          |turn2 (pt64 p1) (pt64 q1) (pt64 x)| ≤ 17 * (1 / 2 ^ 53) * D * (X + M)) := by
  have hu : (1 : ℝ) / 2 ^ 53 ≤ 1 / 1000 := by norm_num
  rcases lineSolve_alike h0 g0 h1 g1 with ⟨e, e'⟩ | ⟨x, y, e, e', s1, s2⟩
  · refine ⟨(.nan, .nan), ?_, Or.inl ⟨rfl, (C150_error rounding_rnd53 hu d0 d1 e').2⟩⟩
    unfold lineIntersectLu
    rw [e]
    dsimp only
    rw [nan_eq]
  · obtain ⟨hy, hf⟩ := pt64_same s1 s2
    refine ⟨x, by rw [lineIntersectLu, e], Or.inr ⟨hf, fun X hX => ?_⟩⟩
    have := C150_lines rounding_rnd53 hu m0 m1 d0 d1 (hy ▸ hX) e'
    rwa [hy] at this

/-- **C150.** In IEEE doubles, if the lines are not nearly parallel, the result is close to their point in common. -/
theorem C150_double_close {p0 q0 p1 q1 : V2 F64} {D M N : ℝ} {P : ℝ × ℝ} (h0 : Moderate2 p0) (g0 : Moderate2 q0) (h1 : Moderate2 p1)
    (g1 : Moderate2 q1) (m0 : Size2 M (pt64 p0)) (m1 : Size2 M (pt64 p1)) (d0 : Size2 D (pt64 q0 - pt64 p0)) (d1 : Size2 D (pt64 q1 - pt64 p1))
    (hN : Size2 N P) (on0 : turn2 (pt64 p0) (pt64 q0) P = 0) (on1 : turn2 (pt64 p1) (pt64 q1) P = 0)
    (hne : steer (pt64 p0) (pt64 q0) (pt64 p1) (pt64 q1) ≠ 0)
    (hbig : 70 * (1 / 2 ^ 53) * D ^ 2 ≤ |steer (pt64 p0) (pt64 q0) (pt64 p1) (pt64 q1)|) :
    ∃ x, lineIntersectLu p0 q0 p1 q1 = .ok x ∧ Finite2 x ∧
      Size2 (70 * (1 / 2 ^ 53) * D ^ 2 * (M + N) / |steer (pt64 p0) (pt64 q0) (pt64 p1) (pt64 q1)|) (pt64 x - P) := by
  have hu : (1 : ℝ) / 2 ^ 53 ≤ 1 / 1000 := by norm_num
  obtain ⟨z, hz, -, hc⟩ := C150_close (p0 := wide2 p0) (q0 := wide2 q0) (p1 := wide2 p1) (q1 := wide2 q1) rounding_rnd53 hu m0 m1 d0 d1 hN on0 on1 hne hbig
  rcases lineSolve_alike h0 g0 h1 g1 with ⟨-, e'⟩ | ⟨x, y, e, e', s1, s2⟩
  · rw [e'] at hz; cases hz
  · rw [e'] at hz
    cases hz
    obtain ⟨hy, hf⟩ := pt64_same s1 s2
    exact ⟨x, by rw [lineIntersectLu, e], hf, by rw [← hy]; exact hc⟩

/-- The lines through `(0, 0)`, `(3, 1)` and through `(0, 5)`, `(1, 3)`: the numbers are moderate, and the result is within 10^-12 of `(15/7, 5/7)`. -/
theorem C150_double_witness :
    ∃ x, lineIntersectLu ((.zero false, .zero false) : V2 F64) (.num 3, .num 1) (.zero false, .num 5) (.num 1, .num 3) = .ok x ∧ Finite2 x ∧
      Size2 (1 / 10 ^ 12) (pt64 x - (15 / 7, 5 / 7)) := by
  have z : ∀ s, Moderate (.zero s) := C106_moderate.1
  have n : ∀ k : ℕ, 1 ≤ k → k ≤ 5 → rndQ k = k → Moderate (.num k) := fun k hk hk' hr =>
    C106_moderate.2.1 _ hr (le_trans (by norm_num) ((le_abs_self _).trans' (by exact_mod_cast hk : (1 : ℚ) ≤ k)))
      (by rw [abs_of_nonneg (by positivity)]; exact le_trans (by exact_mod_cast hk' : (k : ℚ) ≤ 5) (by norm_num))
  have n1 : Moderate (.num 1) := by simpa using n 1 (by norm_num) (by norm_num) (by decide +kernel)
  have n3 : Moderate (.num 3) := by simpa using n 3 (by norm_num) (by norm_num) (by decide +kernel)
  have n5 : Moderate (.num 5) := by simpa using n 5 (by norm_num) (by norm_num) (by decide +kernel)
  obtain ⟨x, hx, hf, hc⟩ := C150_double_close (p0 := (.zero false, .zero false)) (q0 := (.num 3, .num 1)) (p1 := (.zero false, .num 5)) (q1 := (.num 1, .num 3))
    (P := (15 / 7, 5 / 7)) (D := 3) (M := 5) (N := 3) ⟨z _, z _⟩ ⟨n3, n1⟩ ⟨z _, n5⟩ ⟨n1, n3⟩
    (by constructor <;> simp [pt64, F64.val?]) (by constructor <;> simp [pt64, F64.val?]) (by constructor <;> simp [pt64, F64.val?])
    ⟨by simp [pt64, F64.val?], by simp [pt64, F64.val?]; norm_num [abs_le]⟩ (by constructor <;> norm_num [abs_le])
    (by simp [turn2, pt64, F64.val?]; norm_num) (by simp [turn2, pt64, F64.val?]; norm_num) (by simp [steer, pt64, F64.val?]; norm_num)
    (by simp [steer, pt64, F64.val?]; norm_num)
  have st : steer (pt64 (.zero false, .zero false)) (pt64 (.num 3, .num 1)) (pt64 (.zero false, .num 5)) (pt64 (.num 1, .num 3)) = -7 := by
    simp [steer, pt64, F64.val?]; norm_num
  rw [st] at hc
  exact ⟨x, hx, hf, hc.1.trans (by norm_num), hc.2.trans (by norm_num)⟩

end Blmath.Props
