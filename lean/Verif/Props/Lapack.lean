import Verif.Base.F64
import Verif.Model.Lapack
import Verif.Props.Isomorphism
import Verif.Props.Composite
import Mathlib.LinearAlgebra.Matrix.Determinant.Basic

/-!
Property C151: LAPACK's elimination for matrices of any size, as `np.linalg.inv`, `np.linalg.solve` and the determinants use it.
-/

namespace Blmath.Props
open Blmath.Linalg Blmath.Spec Blmath.Geometry

namespace LA
variable {n k : ℕ}

theorem fold_best {β : Type} (r : β → β → Prop) [DecidableRel r] (g : β → ℝ) (hr : ∀ a b, r a b ↔ g a < g b) :
    ∀ (xs : List β) (b : β), g b ≤ g (xs.foldl (fun b i => if r b i then i else b) b) ∧
      ∀ x ∈ xs, g x ≤ g (xs.foldl (fun b i => if r b i then i else b) b) := by
  intro xs
  induction xs with
  | nil => intro b; simp
  | cons y ys ih =>
    intro b
    rw [List.foldl_cons]
    obtain ⟨h1, h2⟩ := ih (if r b y then y else b)
    have hb : g b ≤ g (if r b y then y else b) ∧ g y ≤ g (if r b y then y else b) := by
      split
      · rename_i h; exact ⟨((hr _ _).mp h).le, le_rfl⟩
      · rename_i h; exact ⟨le_rfl, not_lt.mp fun h' => h ((hr _ _).mpr h')⟩
    refine ⟨hb.1.trans h1, fun x hx => ?_⟩
    rcases List.mem_cons.mp hx with rfl | hx
    · exact hb.2.trans h1
    · exact h2 x hx

theorem npAbs_real (x : ℝ) : npAbs x = |x| := by
  unfold npAbs
  by_cases h : x < 0
  · rw [if_pos (by simpa [Num.lt] using h), abs_of_neg h]
  · rw [if_neg (by simpa [Num.lt] using h), abs_of_nonneg (not_lt.mp h)]

theorem idamax_real (f : Fin (n + 1) → ℝ) (i : Fin (n + 1)) : |f i| ≤ |f (idamax f)| := by
  have := (fold_best (fun b i => Num.lt (npAbs (f b)) (npAbs (f i)) = true) (fun i => |f i|) (by
    intro a b; rw [npAbs_real, npAbs_real]; simp [Num.lt]) (List.finRange (n + 1)) 0).2 i (List.mem_finRange i)
  exact this

theorem scal_real (a c : ℝ) (ha : a ≠ 0) : scal a c * a = c := by
  unfold scal
  split
  · field_simp
  · simp [Num.lit]; field_simp

theorem subAll_real (b : ℝ) : ∀ {n : ℕ} (f : Fin n → ℝ), subAll b f = b - ∑ i, f i := by
  intro n
  induction n with
  | zero => intro f; simp [subAll]
  | succ n ih => intro f; rw [subAll, ih, Fin.sum_univ_succ]; ring

/-- the determinant after one step of elimination -/
theorem det_step (a : Matrix (Fin (n + 1)) (Fin (n + 1)) ℝ) (l : Fin n → ℝ) (hl : ∀ i, l i * a 0 0 = a i.succ 0) :
    a.det = a 0 0 * (reduce l (cols a) : Matrix (Fin n) (Fin n) ℝ).det := by
  set e : Matrix (Fin (n + 1)) (Fin (n + 1)) ℝ := Matrix.of fun i j => a i j - (Fin.cons 0 l : Fin (n + 1) → ℝ) i * a 0 j with he
  have h1 : a.det = e.det := by
    refine Matrix.det_eq_of_forall_row_eq_smul_add_const (Fin.cons 0 l) 0 rfl fun i j => ?_
    simp [he]
  rw [h1, Matrix.det_succ_column_zero, Fin.sum_univ_succ]
  have h2 : ∀ i : Fin n, e i.succ 0 = 0 := fun i => by
    have := hl i
    simp only [he, Matrix.of_apply, Fin.cons_succ]
    linarith
  have h3 : e 0 0 = a 0 0 := by simp [he]
  have h4 : e.submatrix (Fin.succAbove 0) Fin.succ = reduce l (cols a) := by
    ext i j
    simp [he, reduce, cols]
  rw [h4, h3, Finset.sum_eq_zero fun i _ => by rw [h2]; ring]
  simp

theorem laswp_det (p : Fin (n + 1)) (a : Matrix (Fin (n + 1)) (Fin (n + 1)) ℝ) :
    (laswp p a : Matrix (Fin (n + 1)) (Fin (n + 1)) ℝ).det = if p = 0 then a.det else -a.det := by
  have : (laswp p a : Matrix (Fin (n + 1)) (Fin (n + 1)) ℝ) = a.submatrix (Equiv.swap 0 p) id := rfl
  rw [this, Matrix.det_permute]
  split
  · rename_i h; rw [h, Equiv.swap_self]; simp
  · rename_i h; rw [Equiv.Perm.sign_swap (Ne.symm h)]; simp

/-- a zero pivot: the whole column is zero -/
theorem det_zero_of_pivot (a : Matrix (Fin (n + 1)) (Fin (n + 1)) ℝ) (h : a (idamax fun i => a i 0) 0 = 0) : a.det = 0 := by
  refine Matrix.det_eq_zero_of_column_eq_zero 0 fun i => ?_
  have := idamax_real (fun i => a i 0) i
  rw [h, abs_zero] at this
  exact abs_nonpos_iff.mp this

theorem laswp_pivot (p : Fin (n + 1)) (a : Mat (n + 1) (k + 1) ℝ) : laswp p a 0 0 = a p 0 := by
  simp [laswp]

theorem gesv_spec : ∀ (n : ℕ) (a : Matrix (Fin n) (Fin n) ℝ) (b : Matrix (Fin n) (Fin k) ℝ),
    (∃ x : Matrix (Fin n) (Fin k) ℝ, gesv a b = .ok x ∧ a * x = b ∧ a.det ≠ 0) ∨ (gesv a b = .error .LinAlgError ∧ a.det = 0) := by
  intro n
  induction n with
  | zero => intro a b; exact Or.inl ⟨b, rfl, by ext i; exact i.elim0, by simp⟩
  | succ n ih =>
    intro a b
    set p := idamax fun i => a i 0 with hp
    set a' : Matrix (Fin (n + 1)) (Fin (n + 1)) ℝ := laswp p a with ha'
    set b' : Matrix (Fin (n + 1)) (Fin k) ℝ := laswp p b with hb'
    have hdet : a'.det = 0 ↔ a.det = 0 := by
      rw [ha', laswp_det]
      split
      · rfl
      · rw [neg_eq_zero]
    have h00 : a' 0 0 = a p 0 := laswp_pivot p a
    by_cases h0 : a' 0 0 = 0
    · right
      refine ⟨?_, det_zero_of_pivot a (h00 ▸ h0)⟩
      unfold gesv
      dsimp only
      rw [if_pos (by simpa [Num.eq] using h0)]
    · set l : Fin n → ℝ := multipliers a' with hl
      have hla : ∀ i, l i * a' 0 0 = a' i.succ 0 := fun i => scal_real _ _ h0
      have hd := det_step a' l hla
      have hg : gesv a b = (gesv (reduce l (cols a')) (reduce l b')).map (backSubst a' b') := by
        rw [gesv]
        dsimp only
        rw [if_neg (by simpa [Num.eq] using h0)]
      rcases ih (reduce l (cols a')) (reduce l b') with ⟨x, hx, hax, hdx⟩ | ⟨hx, hdx⟩
      · left
        rw [hx] at hg
        refine ⟨_, hg, ?_, ?_⟩
        · have key : a' * backSubst a' b' x = b' := by
            have r0 : ∀ j, a' 0 0 * (subAll (b' 0 j) (fun i => a' 0 i.succ * x i j) / a' 0 0) + ∑ i, a' 0 i.succ * x i j = b' 0 j := by
              intro j
              rw [subAll_real]
              field_simp
              ring
            ext i j
            rw [Matrix.mul_apply, Fin.sum_univ_succ]
            simp only [backSubst, Matrix.of_apply, Fin.cons_zero, Fin.cons_succ]
            refine Fin.cases (r0 j) (fun i => ?_) i
            have h1 := congrFun (congrFun hax i) j
            rw [Matrix.mul_apply] at h1
            simp only [reduce, cols, Matrix.of_apply] at h1
            have h2 : ∑ m, (a' i.succ (Fin.succ m) - l i * a' 0 (Fin.succ m)) * x m j =
                ∑ m, a' i.succ (Fin.succ m) * x m j - l i * ∑ m, a' 0 (Fin.succ m) * x m j := by
              rw [Finset.mul_sum, ← Finset.sum_sub_distrib]
              exact Finset.sum_congr rfl fun m _ => by ring
            rw [h2] at h1
            have h3 := r0 j
            have h4 := hla i
            rw [← h4]
            linear_combination h1 + l i * h3
          ext i j
          have := congrFun (congrFun key (Equiv.swap 0 p i)) j
          rw [Matrix.mul_apply] at this ⊢
          simpa [ha', hb', laswp] using this
        · rw [ne_eq, ← hdet, hd]
          exact mul_ne_zero h0 hdx
      · right
        rw [hx] at hg
        exact ⟨hg, by rw [← hdet, hd, hdx, mul_zero]⟩

theorem detAcc_spec : ∀ (n : ℕ) (a : Matrix (Fin n) (Fin n) ℝ) (acc : ℝ), detAcc acc a = acc * a.det := by
  intro n
  induction n with
  | zero => intro a acc; simp [detAcc]
  | succ n ih =>
    intro a acc
    rw [detAcc]
    have h00 : laswp (idamax fun i => a i 0) a 0 0 = a (idamax fun i => a i 0) 0 := laswp_pivot _ a
    by_cases h0 : laswp (idamax fun i => a i 0) a 0 0 = 0
    · rw [if_pos (by simpa [Num.eq] using h0), det_zero_of_pivot a (h00 ▸ h0)]
      simp [Num.lit]
    · rw [if_neg (by simpa [Num.eq] using h0), ih]
      have hd := det_step (laswp (idamax fun i => a i 0) a) (multipliers (laswp (idamax fun i => a i 0) a))
        fun i => scal_real _ _ h0
      rw [laswp_det] at hd
      split at hd
      · rename_i hp
        rw [if_pos hp, hd]; ring
      · rename_i hp
        rw [if_neg hp]
        linear_combination acc * hd

end LA
open LA

/-- **C151.** `np.linalg.solve` by elimination, in exact arithmetic, for matrices of any size and any number of right hand sides: the only solution
if the matrix is regular, LinAlgError if not. -/
theorem C151_solve {n k : ℕ} (a : Matrix (Fin n) (Fin n) ℝ) (b : Matrix (Fin n) (Fin k) ℝ) :
    (a.det ≠ 0 → ∃ x : Matrix (Fin n) (Fin k) ℝ, gesv a b = .ok x ∧ a * x = b ∧ ∀ y : Matrix (Fin n) (Fin k) ℝ, a * y = b → y = x) ∧
    (a.det = 0 → gesv a b = .error .LinAlgError) := by
  rcases gesv_spec n a b with ⟨x, h1, h2, h3⟩ | ⟨h1, h2⟩
  · refine ⟨fun _ => ⟨x, h1, h2, fun y hy => ?_⟩, fun h => absurd h h3⟩
    have hu : IsUnit a.det := isUnit_iff_ne_zero.2 h3
    calc y = a⁻¹ * (a * y) := by rw [← Matrix.mul_assoc, Matrix.nonsing_inv_mul _ hu, Matrix.one_mul]
      _ = a⁻¹ * (a * x) := by rw [hy, h2]
      _ = x := by rw [← Matrix.mul_assoc, Matrix.nonsing_inv_mul _ hu, Matrix.one_mul]
  · exact ⟨fun h => absurd h2 h, fun _ => h1⟩

/-- **C151.** The determinant by elimination is the determinant. -/
theorem C151_det : DetSpec (fun n a => detLu n a) := by
  intro n a
  show detAcc _ a = _
  rw [detAcc_spec]
  simp [Num.lit]

/-- **C151.** `np.linalg.inv` by elimination is what the properties of `isomorphism` and of the block sparse solver assume. -/
theorem C151_inv : InvSpecAny (fun n a => npInv n a) := by
  constructor
  · intro n a b h
    have hab : a * b = 1 := by
      unfold npInv at h
      rcases gesv_spec n a (Mat.eye n) with ⟨x, h1, h2, -⟩ | ⟨h1, -⟩
      · rw [h1] at h
        obtain rfl := Except.ok.inj h
        rw [h2, Mat.eye_real]
      · rw [h1] at h; cases h
    exact ⟨hab, mul_eq_one_comm.1 hab⟩
  · intro n a e h
    unfold npInv at h
    rcases gesv_spec n a (Mat.eye n) with ⟨x, h1, -, -⟩ | ⟨h1, h2⟩
    · rw [h1] at h; cases h
    · rw [h1] at h
      exact ⟨h2, (Except.error.inj h).symm⟩

/-- **C151.** ... and what the properties of composite transforms and of coordinate managers assume. -/
theorem C151_inv4 : InvSpec (fun a => npInv 4 a) :=
  ⟨fun a b h => C151_inv.inverse 4 a b h, fun a e h => C151_inv.fails 4 a e h⟩

/-- **C151.** ... and what the properties of `convexify_planar_curve` assume. -/
theorem C151_inv3 : (∀ a b : Matrix (Fin 3) (Fin 3) ℝ, npInv 3 a = .ok b → a * b = 1) ∧
    ∀ a : Matrix (Fin 3) (Fin 3) ℝ, a.det ≠ 0 → ∃ b, npInv 3 a = .ok b :=
  ⟨fun a b h => (C151_inv.inverse 3 a b h).1, fun a h => (C151_solve a (Mat.eye 3)).1 h |>.imp fun _ h => h.1⟩

/-- **C151.** `isomorphism` with the elimination inside: no assumption about a library is left. -/
theorem C151_isomorphism {n : ℕ} (A B : Matrix (Fin n) (Fin n) ℝ) :
    (LinearIndependent ℝ (fun i => A i) → LinearIndependent ℝ (fun i => B i) →
      ∃ X : Matrix (Fin n) (Fin n) ℝ, isomorphism (fun n a => detLu n a) (fun n a => npInv n a) (ofSquare A) (ofSquare B) = .ok X ∧
        ∀ j, B j = ∑ i, X i j • A i) ∧
    (¬ LinearIndependent ℝ (fun i => A i) ∨ ¬ LinearIndependent ℝ (fun i => B i) →
      isomorphism (fun n a => detLu n a) (fun n a => npInv n a) (ofSquare A) (ofSquare B) = .error .LinearDependenceError) := by
  refine ⟨fun hA hB => ?_, fun h => (C61_errors (inv := fun n a => npInv n a) C151_det (ofSquare A) (ofSquare B)).2.2.1 A B h⟩
  obtain ⟨X, h1, -, h2, -⟩ := C61_coordinates C151_det C151_inv A B hA hB
  exact ⟨X, h1, h2⟩

/-- **C151.** For two equations with one right hand side the elimination is the one of C150, in any arithmetic where no number is less than itself. -/
theorem C151_two {α : Type} [Num α] (hirr : ∀ x : α, Num.lt x x = false) (a b c d r s : α) :
    gesv (!![a, b; c, d] : Mat 2 2 α) (!![r; s] : Mat 2 1 α) = (gesv2 a b c d r s).map fun x => !![x.1; x.2] := by
  have hi : idamax (fun i => (!![a, b; c, d] : Mat 2 2 α) i 0) = if Num.lt (npAbs a) (npAbs c) then 1 else 0 := by
    have : List.finRange 2 = [0, 1] := by decide
    unfold idamax
    rw [this]
    simp only [List.foldl_cons, List.foldl_nil]
    rw [hirr]
    rfl
  have one : ∀ (y v : α), gesv (!![y] : Mat 1 1 α) (!![v] : Mat 1 1 α) = if Num.eq y (Num.lit 0) then raise .LinAlgError else .ok !![v / y] := by
    intro y v
    have hi1 : idamax (fun i => (!![y] : Mat 1 1 α) i 0) = 0 := Fin.fin_one_eq_zero _
    rw [gesv]
    dsimp only
    rw [hi1]
    have e1 : laswp 0 (!![y] : Mat 1 1 α) = !![y] := by ext i j; fin_cases i; fin_cases j; simp [laswp]
    have e2 : laswp 0 (!![v] : Mat 1 1 α) = !![v] := by ext i j; fin_cases i; fin_cases j; simp [laswp]
    rw [e1, e2]
    have e3 : (!![y] : Mat 1 1 α) 0 0 = y := rfl
    rw [e3]
    by_cases h : Num.eq y (Num.lit 0) = true
    · rw [if_pos h, if_pos h]
    · rw [if_neg h, if_neg h, gesv]
      show Except.ok _ = Except.ok _
      congr 1
      ext i j
      fin_cases i; fin_cases j
      rfl
  have el : ∀ a b c d r s : α, (if Num.eq ((!![a, b; c, d] : Mat 2 2 α) 0 0) (Num.lit 0) then raise .LinAlgError else
      (gesv (reduce (multipliers (!![a, b; c, d] : Mat 2 2 α)) (cols (!![a, b; c, d] : Mat 2 2 α)))
        (reduce (multipliers (!![a, b; c, d] : Mat 2 2 α)) (!![r; s] : Mat 2 1 α))).map (backSubst (!![a, b; c, d] : Mat 2 2 α) (!![r; s] : Mat 2 1 α)) : PyM (Mat 2 1 α)) =
      (eliminate a b c d r s).map fun x => !![x.1; x.2] := by
    intro a b c d r s
    have e1 : reduce (multipliers (!![a, b; c, d] : Mat 2 2 α)) (cols (!![a, b; c, d] : Mat 2 2 α)) = !![d - scal a c * b] := by
      ext i j; fin_cases i; fin_cases j; rfl
    have e2 : reduce (multipliers (!![a, b; c, d] : Mat 2 2 α)) (!![r; s] : Mat 2 1 α) = !![s - scal a c * r] := by
      ext i j; fin_cases i; fin_cases j; rfl
    rw [e1, e2, one]
    have e3 : (!![a, b; c, d] : Mat 2 2 α) 0 0 = a := rfl
    rw [e3]
    unfold eliminate
    dsimp only
    have e4 : (if Num.lt (npAbs a) sfmin = true then c / a else c * (Num.lit 1 / a)) = scal a c := rfl
    rw [e4]
    split
    · rfl
    · split
      · rfl
      · show Except.ok _ = Except.ok _
        congr 1
        ext i j
        fin_cases j
        fin_cases i <;> rfl
  rw [gesv]
  dsimp only
  rw [hi]
  unfold gesv2
  split
  · have e1 : laswp 1 (!![a, b; c, d] : Mat 2 2 α) = !![c, d; a, b] := by ext i j; fin_cases i <;> fin_cases j <;> simp [laswp]
    have e2 : laswp 1 (!![r; s] : Mat 2 1 α) = !![s; r] := by ext i j; fin_cases j; fin_cases i <;> simp [laswp]
    rw [e1, e2, el]
  · have e1 : laswp 0 (!![a, b; c, d] : Mat 2 2 α) = !![a, b; c, d] := by ext i j; fin_cases i <;> fin_cases j <;> simp [laswp]
    have e2 : laswp 0 (!![r; s] : Mat 2 1 α) = !![r; s] := by ext i j; fin_cases j; fin_cases i <;> simp [laswp]
    rw [e1, e2, el]

/-- **C151.** The determinant by elimination of a 3×3 matrix is the formula that the model of the rigid transforms has. -/
theorem C151_det33 (a : Matrix (Fin 3) (Fin 3) ℝ) : detLu 3 a = det33 a := by
  rw [show detLu 3 a = a.det from C151_det 3 a, Matrix.det_fin_three]
  unfold det33
  ring

/-- an array with two rows and two columns -/
def LA.grid2 (a b c d : F64) : Grid F64 := ⟨2, 2, fun i j => if i = 0 then (if j = 0 then a else b) else (if j = 0 then c else d)⟩

/-- **C151.** In IEEE doubles `isomorphism` takes a dependent frame for an independent one: both vectors of the first frame are `(1, 49)`; the
determinant comes out as -49·2^-53, and numbers are returned in place of LinearDependenceError.  Both vectors `(1, 3)` are noticed. -/
theorem C151_missed :
    detLu 2 (!![F64.num 1, F64.num 1; F64.num 49, F64.num 49] : Mat 2 2 F64) = .num (-49 / 2 ^ 53) ∧
    (∃ X, isomorphism (fun n a => detLu n a) (fun n a => npInv n a) (grid2 (F64.num 1) (F64.num 49) (F64.num 1) (F64.num 49))
      (grid2 (F64.num 1) (F64.zero false) (F64.zero false) (F64.num 1)) = .ok X) ∧
    isomorphism (fun n a => detLu n a) (fun n a => npInv n a) (grid2 (F64.num 1) (F64.num 3) (F64.num 1) (F64.num 3))
      (grid2 (F64.num 1) (F64.zero false) (F64.zero false) (F64.num 1)) = .error .LinearDependenceError := by
  refine ⟨by decide +kernel, ?_, ?_⟩
  · have : (isomorphism (fun n a => detLu n a) (fun n a => npInv n a) (grid2 (F64.num 1) (F64.num 49) (F64.num 1) (F64.num 49))
      (grid2 (F64.num 1) (F64.zero false) (F64.zero false) (F64.num 1))).isOk = true := by decide +kernel
    revert this
    cases isomorphism (fun n a => detLu n a) (fun n a => npInv n a) (grid2 (F64.num 1) (F64.num 49) (F64.num 1) (F64.num 49))
      (grid2 (F64.num 1) (F64.zero false) (F64.zero false) (F64.num 1)) with
    | ok X => intro _; exact ⟨X, rfl⟩
    | error e => intro h; cases h
  · decide +kernel

/-- A 3×3 system whose first entry is zero, so that rows are exchanged, with its determinant, also in doubles; a singular one. -/
theorem C151_witness :
    gesv (!![0, 2, 1; 1, 1, 0; 2, 0, 3] : Mat 3 3 ℝ) (!![5; 3; 5] : Mat 3 1 ℝ) = .ok !![1; 2; 1] ∧
    detLu 3 (!![0, 2, 1; 1, 1, 0; 2, 0, 3] : Mat 3 3 ℝ) = -8 ∧
    (gesv (!![F64.zero false, F64.num 2, F64.num 1; F64.num 1, F64.num 1, F64.zero false; F64.num 2, F64.zero false, F64.num 3] : Mat 3 3 F64)
      (!![F64.num 5; F64.num 3; F64.num 5] : Mat 3 1 F64)).map (fun x => (x 0 0, x 1 0, x 2 0)) = .ok (.num 1, .num 2, .num 1) ∧
    detLu 3 (!![F64.zero false, F64.num 2, F64.num 1; F64.num 1, F64.num 1, F64.zero false; F64.num 2, F64.zero false, F64.num 3] : Mat 3 3 F64) = .num (-8) ∧
    gesv (!![0, 2, 1; 1, 1, 0; 1, 3, 1] : Mat 3 3 ℝ) (!![5; 3; 5] : Mat 3 1 ℝ) = .error .LinAlgError := by
  have d1 : (!![0, 2, 1; 1, 1, 0; 2, 0, 3] : Matrix (Fin 3) (Fin 3) ℝ).det = -8 := by simp [Matrix.det_fin_three]; norm_num
  have d2 : (!![0, 2, 1; 1, 1, 0; 1, 3, 1] : Matrix (Fin 3) (Fin 3) ℝ).det = 0 := by simp [Matrix.det_fin_three]; norm_num
  refine ⟨?_, (C151_det 3 _).trans d1, by decide +kernel, by decide +kernel, (C151_solve _ _).2 d2⟩
  obtain ⟨x, hx, -, hy⟩ := (C151_solve (!![0, 2, 1; 1, 1, 0; 2, 0, 3] : Matrix (Fin 3) (Fin 3) ℝ) (!![5; 3; 5] : Matrix (Fin 3) (Fin 1) ℝ)).1 (by rw [d1]; norm_num)
  rw [hy !![1; 2; 1] (by ext i j; fin_cases j; fin_cases i <;> simp [Matrix.mul_apply, Fin.sum_univ_three] <;> norm_num)]
  exact hx

end Blmath.Props
