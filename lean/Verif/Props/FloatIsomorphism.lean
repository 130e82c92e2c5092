import Verif.Base.F64
import Verif.Props.Lapack
import Verif.Props.LapackRounded
import Verif.Props.FloatGramSchmidt

/-!
Property C153: `isomorphism` in rounded arithmetic, with LAPACK's elimination for the determinants and the inverse.
-/

namespace Blmath.Props
open Blmath.Linalg Blmath.Spec Blmath.Geometry Blmath.Proofs
variable {rnd : ℝ → ℝ} {u : ℝ}

namespace IM
variable {n k : ℕ}

/-- a frame of `n` vectors with `n` coordinates, each a row -/
noncomputable def frame (A : Mat n n (Rd rnd)) : Grid (Rd rnd) :=
  ⟨n, n, fun i j => if h : i < n ∧ j < n then A ⟨i, h.1⟩ ⟨j, h.2⟩ else ⟨0⟩⟩

theorem square_frame (A : Mat n n (Rd rnd)) : square (frame A).tr n = Mat.tr A := by
  ext i j
  simp [square, Grid.tr, frame, Mat.tr]

theorem rnd_eq_zero (h : Rounding rnd u) (x : ℝ) : rnd x = 0 ↔ x = 0 := by
  constructor
  · intro e
    have := h.err x
    rw [e, zero_sub, abs_neg] at this
    by_contra hx
    have := abs_pos.mpr hx
    nlinarith [h.lt_one]
  · rintro rfl; exact h.zero

/-- the product of the pivots is zero exactly if a pivot is -/
theorem det_zero_iff (h : Rounding rnd u) : ∀ (n : ℕ) (a : Mat n n (Rd rnd)) (b : Mat n k (Rd rnd)) (acc : Rd rnd),
    (detAcc acc a).val = 0 ↔ acc.val = 0 ∨ gesv a b = .error .LinAlgError := by
  intro n
  induction n with
  | zero => intro a b acc; simp [detAcc, gesv]
  | succ n ih =>
    intro a b acc
    have hstep := LA.gesv_step a b
    dsimp only at hstep
    rw [detAcc]
    set p := idamax fun i => a i 0 with hp
    set a' : Mat (n + 1) (n + 1) (Rd rnd) := laswp p a with ha'
    set b' : Mat (n + 1) k (Rd rnd) := laswp p b with hb'
    by_cases h0 : Num.eq (a' 0 0) (Num.lit 0 : Rd rnd) = true
    · rw [if_pos h0] at hstep ⊢
      rw [hstep]
      simp [LA.lit0 h]
    · rw [if_neg h0] at hstep ⊢
      rw [Rd.eq_iff, LA.lit0 h] at h0
      rw [ih _ (reduce (multipliers a') b'), hstep]
      have e1 : (acc * (if p = 0 then a' 0 0 else -a' 0 0)).val = 0 ↔ acc.val = 0 := by
        rw [Rd.val_mul, rnd_eq_zero h, mul_eq_zero]
        split <;> simp [h0]
      rw [e1]
      refine or_congr_right ?_
      cases gesv (reduce (multipliers a') (cols a')) (reduce (multipliers a') b') with
      | ok x => constructor <;> intro e <;> cases e
      | error e => constructor <;> intro e <;> cases e <;> rfl

theorem detLu_zero (h : Rounding rnd u) (a : Mat n n (Rd rnd)) : Num.eq (detLu n a) (Num.lit 0) = true ↔ npInv n a = .error .LinAlgError := by
  rw [Rd.eq_iff, LA.lit0 h]
  unfold detLu npInv
  rw [det_zero_iff h n a (Mat.eye n)]
  rw [Rd.val_lit]
  push_cast
  rw [LU.one h]
  simp

theorem gesv_errors (h : Rounding rnd u) (hu : u ≤ 1 / 1000) (a : Mat n n (Rd rnd)) : (∃ r, npInv n a = .ok r) ∨ npInv n a = .error .LinAlgError := by
  cases e : npInv n a with
  | ok r => exact Or.inl ⟨r, rfl⟩
  | error x =>
    right
    have : ∃ E : ℝ, ∀ i j, |(a i j).val| ≤ E := by
      refine ⟨∑ i, ∑ j, |(a i j).val|, fun i j => ?_⟩
      have h1 := Finset.single_le_sum (f := fun j => |(a i j).val|) (fun j _ => abs_nonneg _) (Finset.mem_univ j)
      have h2 := Finset.single_le_sum (f := fun i => ∑ j, |(a i j).val|) (fun i _ => Finset.sum_nonneg fun j _ => abs_nonneg _) (Finset.mem_univ i)
      exact h1.trans h2
    obtain ⟨E, hE⟩ := this
    rw [(C151_singular h hu a (Mat.eye n) hE e).1]

/-- what `isomorphism` does with two frames of the same number of vectors -/
theorem iso_cases (h : Rounding rnd u) (hu : u ≤ 1 / 1000) (A B : Mat n n (Rd rnd)) :
    (∃ r, npInv n (Mat.tr A) = .ok r ∧ (∃ r', npInv n (Mat.tr B) = .ok r') ∧
      isomorphism (fun n a => detLu n a) (fun n a => npInv n a) (frame A) (frame B) = .ok (Mat.mul r (Mat.tr B))) ∨
    ((npInv n (Mat.tr A) = .error .LinAlgError ∨ npInv n (Mat.tr B) = .error .LinAlgError) ∧
      isomorphism (fun n a => detLu n a) (fun n a => npInv n a) (frame A) (frame B) = .error .LinearDependenceError) := by
  have h1 : ¬ (frame A).m ≠ (frame B).m := fun h => h rfl
  have h2 : ¬ (frame A).tr.n ≠ (frame B).tr.n := fun h => h rfl
  have d : ∀ A : Mat n n (Rd rnd), npDet (fun n a => detLu n a) (frame A).tr = .ok (detLu n (Mat.tr A)) := by
    intro A
    have : (frame A).tr.m = (frame A).tr.n := rfl
    rw [npDet, if_pos this]
    show Except.ok (detLu n (square (frame A).tr n)) = _
    rw [square_frame]
  have hv : validateFrames (fun n a => detLu n a) (frame A) (frame B) =
      if Num.eq (detLu n (Mat.tr A)) (Num.lit 0) then raise .LinearDependenceError
      else if Num.eq (detLu n (Mat.tr B)) (Num.lit 0) then raise .LinearDependenceError else pure () := by
    rw [validateFrames, if_neg h1, if_neg h2, d, d]
    rfl
  have hi : isomorphism (fun n a => detLu n a) (fun n a => npInv n a) (frame A) (frame B) =
      (validateFrames (fun n a => detLu n a) (frame A) (frame B) >>= fun _ => npInv n (square (frame A).tr n) >>= fun i1 =>
        pure (Mat.mul i1 (square (frame B).tr n))) := rfl
  rw [hi, hv, square_frame, square_frame]
  rcases gesv_errors h hu (Mat.tr A) with ⟨r, hr⟩ | hr
  · have n1 : ¬ Num.eq (detLu n (Mat.tr A)) (Num.lit 0) = true := fun e => by rw [(detLu_zero h _).1 e] at hr; cases hr
    rw [if_neg n1]
    rcases gesv_errors h hu (Mat.tr B) with ⟨r', hr'⟩ | hr'
    · have n2 : ¬ Num.eq (detLu n (Mat.tr B)) (Num.lit 0) = true := fun e => by rw [(detLu_zero h _).1 e] at hr'; cases hr'
      rw [if_neg n2]
      left
      refine ⟨r, hr, ⟨r', hr'⟩, ?_⟩
      rw [hr]
      rfl
    · rw [if_pos ((detLu_zero h _).2 hr')]
      exact Or.inr ⟨Or.inr hr', rfl⟩
  · rw [if_pos ((detLu_zero h _).2 hr)]
    exact Or.inr ⟨Or.inl hr, rfl⟩

/-- a product of matrices -/
theorem mul_err (h : Rounding rnd u) (hn : ((n : ℝ) + 1) * u ≤ 1 / 100) {r b : Mat n n (Rd rnd)} {X F : ℝ} (hX : ∀ i j, |(r i j).val| ≤ X)
    (hF : ∀ i j, |(b i j).val| ≤ F) (i j : Fin n) :
    |(Mat.mul r b i j).val - ∑ m, (r i m).val * (b m j).val| ≤ 1.02 * (((n : ℝ) + 1) * u) * (n * (X * F)) := by
  have hX0 : 0 ≤ X := (abs_nonneg _).trans (hX i i)
  have a : Appr u (1 + n) (∑ m, (r i m).val * (b m j).val) (∑ m, |(r i m).val * (b m j).val|) (Mat.mul r b i j).val :=
    GS.sumFin_appr h 1 (fun m => r i m * b m j) (fun m => (r i m).val * (b m j).val) (fun m => |(r i m).val * (b m j).val|) fun m =>
      (Appr.exact (k := 0) h _).round h
  have hs : ∑ m, |(r i m).val * (b m j).val| ≤ n * (X * F) := by
    have := Finset.sum_le_sum fun m (_ : m ∈ Finset.univ) => LU.mul_le_of (hX i m) (hF m j)
    simpa using this
  have hk : ((1 + n : ℕ) : ℝ) * u = (n + 1) * u := by push_cast; ring
  have b1 := (a.size hs).bound h.nonneg h.lt_one (by rw [hk]; linarith)
  refine b1.trans (mul_le_mul_of_nonneg_right ?_ ((Finset.sum_nonneg fun _ _ => abs_nonneg _).trans hs))
  unfold gam
  rw [hk, div_le_iff₀ (by linarith)]
  have : 0 ≤ ((n : ℝ) + 1) * u := mul_nonneg (by positivity) h.nonneg
  nlinarith

theorem tr_le {A : Mat n n (Rd rnd)} {E : ℝ} (hE : ∀ i j, |(A i j).val| ≤ E) (i j : Fin n) : |(Mat.tr A i j).val| ≤ E := hE j i

/-- no inverse: the frame is nearly dependent -/
theorem near_dependent (h : Rounding rnd u) (hu : u ≤ 1 / 1000) {A : Mat n n (Rd rnd)} {E : ℝ} (hE : ∀ i j, |(A i j).val| ≤ E)
    (e : npInv n (Mat.tr A) = .error .LinAlgError) :
    ∃ s : Matrix (Fin n) (Fin n) ℝ, ¬ LinearIndependent ℝ (fun i => s i) ∧ ∀ i j, |s i j - (A i j).val| ≤ 3 * 2.01 ^ n * u * E := by
  obtain ⟨-, s, h1, h2⟩ := C151_singular h hu (Mat.tr A) (Mat.eye n) (tr_le hE) e
  refine ⟨s.transpose, ?_, fun i j => h2 j i⟩
  rw [frame_independent, Matrix.det_transpose, not_not]
  exact h1

end IM
open IM

/-- **C153.** `isomorphism` of two frames of `n` vectors in rounded arithmetic: it returns a matrix or raises LinearDependenceError, nothing else;
and LinearDependenceError is only raised if one of the frames is within a few roundings of a dependent one. -/
theorem C153_result (h : Rounding rnd u) (hu : u ≤ 1 / 1000) {n : ℕ} (A B : Mat n n (Rd rnd)) {E F : ℝ} (hE : ∀ i j, |(A i j).val| ≤ E)
    (hF : ∀ i j, |(B i j).val| ≤ F) :
    (∃ Y, isomorphism (fun n a => detLu n a) (fun n a => npInv n a) (frame A) (frame B) = .ok Y) ∨
    (isomorphism (fun n a => detLu n a) (fun n a => npInv n a) (frame A) (frame B) = .error .LinearDependenceError ∧
      ((∃ s : Matrix (Fin n) (Fin n) ℝ, ¬ LinearIndependent ℝ (fun i => s i) ∧ ∀ i j, |s i j - (A i j).val| ≤ 3 * 2.01 ^ n * u * E) ∨
        ∃ s : Matrix (Fin n) (Fin n) ℝ, ¬ LinearIndependent ℝ (fun i => s i) ∧ ∀ i j, |s i j - (B i j).val| ≤ 3 * 2.01 ^ n * u * F)) := by
  rcases iso_cases h hu A B with ⟨r, -, -, e⟩ | ⟨h1, e⟩
  · exact Or.inl ⟨_, e⟩
  · refine Or.inr ⟨e, h1.imp (near_dependent h hu hE) (near_dependent h hu hF)⟩

/-- **C153.** What `isomorphism` returns in rounded arithmetic: the combinations of the vectors of the first frame with the columns of the result
are the vectors of the second frame, up to rounding. -/
theorem C153_residual (h : Rounding rnd u) (hu : u ≤ 1 / 1000) {n : ℕ} (hn : ((n : ℝ) + 1) * u ≤ 1 / 100) (A B Y : Mat n n (Rd rnd))
    (e : isomorphism (fun n a => detLu n a) (fun n a => npInv n a) (frame A) (frame B) = .ok Y) :
    ∃ r, npInv n (Mat.tr A) = .ok r ∧ ∀ E F X : ℝ, (∀ i j, |(A i j).val| ≤ E) → (∀ i j, |(B i j).val| ≤ F) → (∀ i j, |(r i j).val| ≤ X) →
      ∀ i j, |∑ m, (Y m j).val * (A m i).val - (B j i).val| ≤ n * F * u * (2.01 ^ n * (18 * E * X + 3) + 1.02 * n * (n + 1) * (E * X)) := by
  rcases iso_cases h hu A B with ⟨r, hr, -, e'⟩ | ⟨-, e'⟩
  swap
  · rw [e] at e'; cases e'
  rw [e] at e'
  have hY : Y = Mat.mul r (Mat.tr B) := Except.ok.inj e'
  refine ⟨r, hr, fun E F X hE hF hX i j => ?_⟩
  have hn' : (n : ℝ) * u ≤ 1 / 100 := by nlinarith [h.nonneg]
  have hu0 := h.nonneg
  have hE0 : 0 ≤ E := (abs_nonneg _).trans (hE i i)
  have hF0 : 0 ≤ F := (abs_nonneg _).trans (hF i i)
  have hX0 : 0 ≤ X := (abs_nonneg _).trans (hX i i)
  have k1 : ∀ l, |∑ m, (A m i).val * (r m l).val - (1 : Matrix (Fin n) (Fin n) ℝ) i l| ≤ 2.01 ^ n * u * (18 * E * X + 3) := fun l =>
    C151_inv_residual h hu hn' (Mat.tr A) r (tr_le hE) hX hr i l
  have k2 : ∀ m, |(Y m j).val - ∑ l, (r m l).val * (B j l).val| ≤ 1.02 * (((n : ℝ) + 1) * u) * (n * (X * F)) := fun m => by
    rw [hY]; exact mul_err h hn hX (tr_le hF) m j
  have e1 : ∑ m, (Y m j).val * (A m i).val - (B j i).val =
      ∑ m, (A m i).val * ((Y m j).val - ∑ l, (r m l).val * (B j l).val) +
      ∑ l, (∑ m, (A m i).val * (r m l).val - (1 : Matrix (Fin n) (Fin n) ℝ) i l) * (B j l).val := by
    have a1 : ∑ l, (∑ m, (A m i).val * (r m l).val - (1 : Matrix (Fin n) (Fin n) ℝ) i l) * (B j l).val =
        ∑ m, (A m i).val * ∑ l, (r m l).val * (B j l).val - (B j i).val := by
      simp only [sub_mul, Finset.sum_sub_distrib, Finset.sum_mul, Finset.mul_sum]
      rw [Finset.sum_comm]
      congr 1
      · exact Finset.sum_congr rfl fun m _ => Finset.sum_congr rfl fun l _ => by ring
      · simp [Matrix.one_apply]
    rw [a1]
    simp only [mul_sub, Finset.sum_sub_distrib]
    have : ∑ m, (Y m j).val * (A m i).val = ∑ m, (A m i).val * (Y m j).val := Finset.sum_congr rfl fun m _ => mul_comm _ _
    rw [this]
    ring
  rw [e1]
  have s1 : |∑ m, (A m i).val * ((Y m j).val - ∑ l, (r m l).val * (B j l).val)| ≤ n * (E * (1.02 * (((n : ℝ) + 1) * u) * (n * (X * F)))) := by
    refine (Finset.abs_sum_le_sum_abs _ _).trans ?_
    have := Finset.sum_le_sum fun m (_ : m ∈ Finset.univ) => LU.mul_le_of (hE m i) (k2 m)
    simpa using this
  have s2 : |∑ l, (∑ m, (A m i).val * (r m l).val - (1 : Matrix (Fin n) (Fin n) ℝ) i l) * (B j l).val| ≤
      n * (2.01 ^ n * u * (18 * E * X + 3) * F) := by
    refine (Finset.abs_sum_le_sum_abs _ _).trans ?_
    have := Finset.sum_le_sum fun l (_ : l ∈ Finset.univ) => LU.mul_le_of (k1 l) (hF j l)
    simpa using this
  refine (abs_add_le _ _).trans ((add_le_add s1 s2).trans (le_of_eq ?_))
  ring

/-- Two frames in double precision that are far from dependent, and a frame that is dependent and noticed. -/
theorem C153_witness :
    (∃ Y, isomorphism (fun n a => detLu n a) (fun n a => npInv n a) (frame (!![⟨0⟩, ⟨1⟩; ⟨2⟩, ⟨1⟩] : Mat 2 2 (Rd rnd53)))
      (frame (!![⟨0⟩, ⟨2⟩; ⟨1⟩, ⟨1⟩] : Mat 2 2 (Rd rnd53))) = .ok Y) ∧
    isomorphism (fun n a => detLu n a) (fun n a => npInv n a) (frame (!![⟨-8⟩, ⟨-8⟩; ⟨3⟩, ⟨3⟩] : Mat 2 2 (Rd rnd53)))
      (frame (!![⟨0⟩, ⟨2⟩; ⟨1⟩, ⟨1⟩] : Mat 2 2 (Rd rnd53))) = .error .LinearDependenceError := by
  have hu : (1 : ℝ) / 2 ^ 53 ≤ 1 / 1000 := by norm_num
  have cl : ∀ {a b : ℝ}, |a - b| ≤ 3 * 2.01 ^ 2 * (1 / 2 ^ 53) * 2 → |a - b| ≤ 1 / 100 := fun h => h.trans (by norm_num)
  constructor
  · rcases C153_result rounding_rnd53 hu (!![⟨0⟩, ⟨1⟩; ⟨2⟩, ⟨1⟩] : Mat 2 2 (Rd rnd53)) (!![⟨0⟩, ⟨2⟩; ⟨1⟩, ⟨1⟩] : Mat 2 2 (Rd rnd53)) (E := 2) (F := 2)
      (by intro i j; fin_cases i <;> fin_cases j <;> simp) (by intro i j; fin_cases i <;> fin_cases j <;> simp) with hY | ⟨-, ⟨s, h1, h2⟩ | ⟨s, h1, h2⟩⟩
    · exact hY
    · rw [frame_independent, not_not, Matrix.det_fin_two] at h1
      have h00 : |s 0 0 - 0| ≤ 1 / 100 := cl (h2 0 0)
      have h01 : |s 0 1 - 1| ≤ 1 / 100 := cl (h2 0 1)
      have h10 : |s 1 0 - 2| ≤ 1 / 100 := cl (h2 1 0)
      have h11 : |s 1 1 - 1| ≤ 1 / 100 := cl (h2 1 1)
      rw [abs_le] at h00 h01 h10 h11
      have : s 0 0 * s 1 1 < s 0 1 * s 1 0 := by nlinarith
      linarith
    · rw [frame_independent, not_not, Matrix.det_fin_two] at h1
      have h00 : |s 0 0 - 0| ≤ 1 / 100 := cl (h2 0 0)
      have h01 : |s 0 1 - 2| ≤ 1 / 100 := cl (h2 0 1)
      have h10 : |s 1 0 - 1| ≤ 1 / 100 := cl (h2 1 0)
      have h11 : |s 1 1 - 1| ≤ 1 / 100 := cl (h2 1 1)
      rw [abs_le] at h00 h01 h10 h11
      have : s 0 0 * s 1 1 < s 0 1 * s 1 0 := by nlinarith
      linarith
  · obtain ⟨b, hb⟩ := C151_rounded_witness.2
    have ht : Mat.tr (!![⟨-8⟩, ⟨-8⟩; ⟨3⟩, ⟨3⟩] : Mat 2 2 (Rd rnd53)) = !![⟨-8⟩, ⟨3⟩; ⟨-8⟩, ⟨3⟩] := by
      ext i j; fin_cases i <;> fin_cases j <;> rfl
    have hz : (detAcc (Num.lit 1) (!![⟨-8⟩, ⟨3⟩; ⟨-8⟩, ⟨3⟩] : Mat 2 2 (Rd rnd53))).val = 0 := (det_zero_iff rounding_rnd53 2 _ b _).2 (Or.inr hb)
    have hi : npInv 2 (Mat.tr (!![⟨-8⟩, ⟨-8⟩; ⟨3⟩, ⟨3⟩] : Mat 2 2 (Rd rnd53))) = .error .LinAlgError := by
      rw [ht]
      refine (detLu_zero rounding_rnd53 _).1 ?_
      rw [Rd.eq_iff, LA.lit0 rounding_rnd53]
      exact hz
    rcases iso_cases rounding_rnd53 hu (!![⟨-8⟩, ⟨-8⟩; ⟨3⟩, ⟨3⟩] : Mat 2 2 (Rd rnd53)) (!![⟨0⟩, ⟨2⟩; ⟨1⟩, ⟨1⟩] : Mat 2 2 (Rd rnd53)) with ⟨r, hr, -⟩ | ⟨-, e⟩
    · rw [hi] at hr; cases hr
    · exact e

/-- **C153.** The limits of the exponent matter: in IEEE doubles two orthogonal vectors of length 2^-600 raise LinearDependenceError, since the product
of the pivots underflows, while `np.linalg.inv` of the same matrix succeeds, without rounding. -/
theorem C153_underflow :
    isomorphism (fun n a => detLu n a) (fun n a => npInv n a) (LA.grid2 (F64.num (1 / 2 ^ 600)) (F64.zero false) (F64.zero false) (F64.num (1 / 2 ^ 600)))
      (LA.grid2 (F64.num 1) (F64.zero false) (F64.zero false) (F64.num 1)) = .error .LinearDependenceError ∧
    (npInv 2 (!![F64.num (1 / 2 ^ 600), F64.zero false; F64.zero false, F64.num (1 / 2 ^ 600)] : Mat 2 2 F64)).map
      (fun x => (x 0 0, Num.eq (x 0 1) (Num.lit 0), Num.eq (x 1 0) (Num.lit 0), x 1 1)) = .ok (F64.num (2 ^ 600), true, true, F64.num (2 ^ 600)) := by
  constructor <;> decide +kernel

end Blmath.Props
