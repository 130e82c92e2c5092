import Verif.Model.Composite
import Verif.Spec.Transform
import Verif.Props.Rotation
import Verif.Props.Rodrigues
import Verif.Props.Vx
import Verif.Proofs.Units
import Mathlib.LinearAlgebra.Matrix.NonsingularInverse

/-!
Properties C53 and C54: composite transforms.
-/

namespace Blmath.Props
open Blmath.Geometry Blmath.Spec Blmath.Vx

theorem affine_one : Affine 1 := by simp [Affine]

theorem affine_mul {a b : Mat 4 4 ℝ} (ha : Affine a) (hb : Affine b) : Affine (a * b) := by
  obtain ⟨a0, a1, a2, a3⟩ := ha
  obtain ⟨b0, b1, b2, b3⟩ := hb
  simp [Affine, Matrix.mul_apply, Fin.sum_univ_four, *]

theorem affMap_one (p : V3 ℝ) : affMap 1 p = p := by ext <;> simp [affMap]

theorem affMap_mul {a b : Mat 4 4 ℝ} (hb : Affine b) (p : V3 ℝ) : affMap (a * b) p = affMap a (affMap b p) := by
  obtain ⟨b0, b1, b2, b3⟩ := hb
  ext <;> simp only [affMap, Matrix.mul_apply, Fin.sum_univ_four, b0, b1, b2, b3] <;> ring

theorem affine_inverse {a b : Mat 4 4 ℝ} (ha : Affine a) (h : a * b = 1) : Affine b := by
  obtain ⟨a0, a1, a2, a3⟩ := ha
  have e : ∀ j, (a * b) 3 j = b 3 j := by
    intro j; simp [Matrix.mul_apply, Fin.sum_univ_four, a0, a1, a2, a3]
  rw [h] at e
  simp [Affine, ← e]

/-- a forward and a reverse matrix that belong together -/
def PairOk (t : Mat 4 4 ℝ × Mat 4 4 ℝ) : Prop := Affine t.1 ∧ Affine t.2 ∧ t.1 * t.2 = 1 ∧ t.2 * t.1 = 1

theorem pairOk_of {f r : Mat 4 4 ℝ} (hf : Affine f) (h : r * f = 1) : PairOk (f, r) :=
  ⟨hf, affine_inverse hf (mul_eq_one_comm.mp h), mul_eq_one_comm.mp h, h⟩

theorem affine_pad44 (m : Mat 3 3 ℝ) : Affine (pad44 m) := by
  simp [Affine, pad44]

theorem pad44_mul (a b : Mat 3 3 ℝ) : pad44 a * pad44 b = pad44 (a * b) := by
  ext i j
  fin_cases i <;> fin_cases j <;> simp [pad44, Matrix.mul_apply, Fin.sum_univ_four, Fin.sum_univ_three]

theorem pad44_one : pad44 (1 : Mat 3 3 ℝ) = 1 := by
  ext i j
  fin_cases i <;> fin_cases j <;> simp [pad44]

theorem affMap_pad44 (m : Mat 3 3 ℝ) (p : V3 ℝ) : affMap (pad44 m) p = act m p := by
  ext <;> simp [affMap, pad44, act_eq]

theorem affMap_translation44 (v p : V3 ℝ) : affMap (translation44 v) p = p + v := by
  ext <;> simp [affMap, translation44]

theorem affine_translation44 (v : V3 ℝ) : Affine (translation44 v) := by
  simp [Affine, translation44]

theorem translation44_neg (v : V3 ℝ) : translation44 (-v) * translation44 v = 1 := by
  ext i j
  fin_cases i <;> fin_cases j <;> simp [translation44, Matrix.mul_apply, Fin.sum_univ_four]

theorem rotationFromUpAndLook_rot {up look : V3 ℝ} {R : Mat 3 3 ℝ} (h : rotationFromUpAndLook up look = .ok R) :
    IsRotation R := by
  by_cases hc : cross3 up look = zero3
  · rw [C49_errors up look hc] at h; cases h
  · obtain ⟨R', hR', hrot, -⟩ := C49_rotation up look hc
    rw [h] at hR'; cases hR'; exact hrot

/-! ### one step -/

/-- the calls after which transforms can be undone: an explicit 4×4 matrix is affine, and an explicit
reverse matrix is the inverse of the forward one -/
def Reversible : TOp ℝ → Prop
  | .append4 f none => Affine f
  | .append4 f (some r) => Affine f ∧ r * f = 1
  | .append3 (.mat f) (some (.mat r)) => r * f = 1
  | _ => True

theorem appendRotation_good {inv} {st : Composite ℝ} (h : ∀ t ∈ st, PairOk t) (m : PyM (Mat 3 3 ℝ))
    (hm : ∀ R, m = .ok R → IsRotation R) : ∀ t ∈ (appendRotation inv st m).1, PairOk t := by
  cases m with
  | error e => exact h
  | ok R =>
    have hR := hm R rfl
    intro t ht
    simp only [appendRotation, append3, convert33To44, append4] at ht
    rcases List.mem_append.mp ht with ht | ht
    · exact h t ht
    · rw [List.mem_singleton.mp ht]
      refine pairOk_of (affine_pad44 _) ?_
      rw [pad44_mul, Mat.tr_eq, hR.1, pad44_one]

theorem scale_good {inv} {st : Composite ℝ} (h : ∀ t ∈ st, PairOk t) (x : ℝ) :
    ∀ t ∈ (scaleT inv st x).1, PairOk t := by
  unfold scaleT
  by_cases hx : x ≤ 0
  · rw [if_pos (by simpa using hx)]; exact h
  · rw [if_neg (by simpa using hx)]
    intro t ht
    simp only [append3, convert33To44, append4] at ht
    rcases List.mem_append.mp ht with ht | ht
    · exact h t ht
    · rw [List.mem_singleton.mp ht]
      refine pairOk_of (affine_pad44 _) ?_
      have hx0 : x ≠ 0 := by intro h0; apply hx; rw [h0]
      rw [pad44_mul, Mat.diag_real, Mat.diag_real, Matrix.diagonal_mul_diagonal]
      simp only [Num.lit_real, Rat.cast_one, one_div, inv_mul_cancel₀ hx0]
      rw [Matrix.diagonal_one, pad44_one]

theorem asRotationMatrix_rot {svd : Svd3 ℝ} {r : RotArg ℝ} {R : Mat 3 3 ℝ} (h : asRotationMatrix svd r = .ok R) :
    IsRotation R := by
  cases r with
  | vec v => cases h; exact C51_rotation v
  | other => cases h
  | mat m =>
    simp only [asRotationMatrix] at h
    obtain ⟨v, -, h⟩ := bind_eq_ok.mp h
    cases h; exact C51_rotation v

theorem step_good {inv} (hinv : InvSpec inv) (svd : Svd3 ℝ) {st : Composite ℝ} (h : ∀ t ∈ st, PairOk t) (op : TOp ℝ)
    (hop : Reversible op) : ∀ t ∈ stepT inv svd st op, PairOk t := by
  have h4 : ∀ f r, Affine f → (∀ r', r = some r' → r' * f = 1) → ∀ t ∈ (append4 inv st f r).1, PairOk t := by
    intro f r hf hr t ht
    unfold append4 at ht
    cases r with
    | none =>
      simp only at ht
      cases hi : inv f with
      | error e => rw [hi] at ht; exact h t ht
      | ok b =>
        rw [hi] at ht
        rcases List.mem_append.mp ht with ht | ht
        · exact h t ht
        · rw [List.mem_singleton.mp ht]; exact pairOk_of hf (hinv.inverse _ _ hi).2
    | some r =>
      rcases List.mem_append.mp ht with ht | ht
      · exact h t ht
      · rw [List.mem_singleton.mp ht]; exact pairOk_of hf (hr r rfl)
  cases op with
  | append4 f r =>
    cases r with
    | none => exact h4 f none hop (by simp)
    | some r => exact h4 f (some r) hop.1 (by rintro r' h'; cases h'; exact hop.2)
  | append3 f r =>
    simp only [stepT, append3]
    cases f with
    | wrong k => simp only [convert33To44]; split <;> rename_i he <;> split at he <;> cases he <;> exact h
    | mat f =>
      simp only [convert33To44]
      cases r with
      | none => exact h4 _ none (affine_pad44 f) (by simp)
      | some r =>
        cases r with
        | wrong k => simp only; split <;> rename_i he <;> split at he <;> cases he <;> exact h
        | mat r =>
          refine h4 _ _ (affine_pad44 f) ?_
          rintro r' h'; cases h'
          have hop : r * f = 1 := hop
          rw [pad44_mul, hop, pad44_one]
  | scale x => exact scale_good h x
  | convertUnits a b =>
    simp only [stepT, convertUnitsT]
    split
    · exact h
    · exact scale_good h _
  | translate v => exact h4 _ _ (affine_translation44 v) (by rintro r' h'; cases h'; exact translation44_neg v)
  | reorient u l =>
    refine appendRotation_good h _ ?_
    intro R hR
    exact rotationFromUpAndLook_rot hR
  | rotate r => exact appendRotation_good h _ fun R hR => asRotationMatrix_rot hR

theorem run_good {inv} (hinv : InvSpec inv) (svd : Svd3 ℝ) (ops : List (TOp ℝ)) (hops : ∀ op ∈ ops, Reversible op)
    (st : Composite ℝ) (h : ∀ t ∈ st, PairOk t) : ∀ t ∈ runT inv svd st ops, PairOk t := by
  induction ops generalizing st with
  | nil => exact h
  | cons op ops ih =>
    exact ih (fun o ho => hops o (List.mem_cons_of_mem _ ho)) _ (step_good hinv svd h op (hops op List.mem_cons_self))

/-! ### the matrix of a range -/

/-- the transforms selected by a range -/
def selected (st : Composite ℝ) : Option (Option ℤ × Option ℤ) → Composite ℝ
  | none => st
  | some (a, b) => pySlice st (a.getD 0) (b.getD st.length)

theorem mem_selected {st : Composite ℝ} {r} {t} (h : t ∈ selected st r) : t ∈ st := by
  cases r with
  | none => exact h
  | some ab => exact List.mem_of_mem_take (List.mem_of_mem_drop h)

theorem foldl_mul_real (ms : List (Mat 4 4 ℝ)) (m : Mat 4 4 ℝ) : ms.foldl Mat.mul m = m * ms.prod := by
  induction ms generalizing m with
  | nil => simp
  | cons a ms ih => rw [List.foldl_cons, ih, Mat.mul_real, List.prod_cons, mul_assoc]

theorem reduceDot_real (ms : List (Mat 4 4 ℝ)) : reduceDot ms = ms.prod := by
  cases ms with
  | nil => exact Mat.eye_real 4
  | cons m ms => rw [reduceDot, foldl_mul_real, List.prod_cons]

theorem matrixFor_rev (st : Composite ℝ) (r) : matrixFor st r true = ((selected st r).map (·.2)).prod := by
  have e : matrixFor st r true = if ((selected st r).map (·.2)).length = 0 then Mat.eye 4 else
      reduceDot ((selected st r).map (·.2)) := by
    cases r <;> rfl
  rw [e, reduceDot_real]
  split
  · rename_i h
    rw [List.length_eq_zero_iff.mp h, Mat.eye_real]; rfl
  · rfl

theorem matrixFor_fwd (st : Composite ℝ) (r) : matrixFor st r false = ((selected st r).map (·.1)).reverse.prod := by
  have e : matrixFor st r false = if ((selected st r).map (fun t => Mat.tr t.1)).length = 0 then Mat.eye 4 else
      Mat.tr (reduceDot ((selected st r).map (fun t => Mat.tr t.1))) := by
    cases r <;> rfl
  rw [e, reduceDot_real]
  split
  · rename_i h
    have h' : selected st r = [] := by simpa using h
    rw [h', Mat.eye_real]; rfl
  · rw [Mat.tr_eq, Matrix.transpose_list_prod, List.map_map]
    congr 2

/-- passing a point through the transforms in order -/
def through (ts : Composite ℝ) (p : V3 ℝ) : V3 ℝ := ts.foldl (fun q t => affMap t.1 q) p
/-- passing a point back through the transforms, last one first -/
def back (ts : Composite ℝ) (p : V3 ℝ) : V3 ℝ := ts.foldr (fun t q => affMap t.2 q) p

theorem rev_affine {ts : Composite ℝ} (h : ∀ t ∈ ts, PairOk t) : Affine (ts.map (·.2)).prod := by
  induction ts with
  | nil => exact affine_one
  | cons t ts ih =>
    rw [List.map_cons, List.prod_cons]
    exact affine_mul (h t List.mem_cons_self).2.1 (ih fun s hs => h s (List.mem_cons_of_mem _ hs))

theorem fwd_affine {ts : Composite ℝ} (h : ∀ t ∈ ts, PairOk t) : Affine (ts.map (·.1)).reverse.prod := by
  induction ts with
  | nil => exact affine_one
  | cons t ts ih =>
    rw [List.map_cons, List.reverse_cons, List.prod_append, List.prod_singleton]
    exact affine_mul (ih fun s hs => h s (List.mem_cons_of_mem _ hs)) (h t List.mem_cons_self).1

theorem rev_map {ts : Composite ℝ} (h : ∀ t ∈ ts, PairOk t) (p : V3 ℝ) : affMap (ts.map (·.2)).prod p = back ts p := by
  induction ts with
  | nil => exact affMap_one p
  | cons t ts ih =>
    have h' : ∀ s ∈ ts, PairOk s := fun s hs => h s (List.mem_cons_of_mem _ hs)
    rw [List.map_cons, List.prod_cons, affMap_mul (rev_affine h'), ih h']
    rfl

theorem fwd_map {ts : Composite ℝ} (h : ∀ t ∈ ts, PairOk t) (p : V3 ℝ) : affMap (ts.map (·.1)).reverse.prod p = through ts p := by
  induction ts generalizing p with
  | nil => exact affMap_one p
  | cons t ts ih =>
    have h' : ∀ s ∈ ts, PairOk s := fun s hs => h s (List.mem_cons_of_mem _ hs)
    rw [List.map_cons, List.reverse_cons, List.prod_append, List.prod_singleton, affMap_mul (h t List.mem_cons_self).1, ih h']
    rfl

theorem back_through {ts : Composite ℝ} (h : ∀ t ∈ ts, PairOk t) (p : V3 ℝ) : back ts (through ts p) = p := by
  induction ts generalizing p with
  | nil => rfl
  | cons t ts ih =>
    have ht := h t List.mem_cons_self
    show affMap t.2 (back ts (through ts (affMap t.1 p))) = p
    rw [ih (fun s hs => h s (List.mem_cons_of_mem _ hs)), ← affMap_mul ht.1, ht.2.2.2, affMap_one]

theorem through_back {ts : Composite ℝ} (h : ∀ t ∈ ts, PairOk t) (p : V3 ℝ) : through ts (back ts p) = p := by
  induction ts generalizing p with
  | nil => rfl
  | cons t ts ih =>
    have ht := h t List.mem_cons_self
    show through ts (affMap t.1 (affMap t.2 (back ts p))) = p
    rw [← affMap_mul ht.2.1, ht.2.2.1, affMap_one]
    exact ih (fun s hs => h s (List.mem_cons_of_mem _ hs)) p

/-- rows of three numbers -/
def pts (ps : List (V3 ℝ)) : Arr ℝ := .mat 3 (ps.map V3.toList)

theorem applyMatrix_eq (m : Mat 4 4 ℝ) (ps : List (V3 ℝ)) :
    applyMatrix m (pts ps) = (open Classical in if ∀ p ∈ ps, m 3 0 * p.x + m 3 1 * p.y + m 3 2 * p.z + m 3 3 = 1 then
      .ok (pts (ps.map (affMap m))) else raise .ValueError) := by
  have h1 := C19_apply ps ⟨m 0 0, m 0 1, m 0 2⟩ ⟨m 1 0, m 1 1, m 1 2⟩ ⟨m 2 0, m 2 1, m 2 2⟩ ⟨m 3 0, m 3 1, m 3 2⟩ (m 0 3) (m 1 3) (m 2 3) (m 3 3)
  have hrows : m.rows = [row4 ⟨m 0 0, m 0 1, m 0 2⟩ (m 0 3), row4 ⟨m 1 0, m 1 1, m 1 2⟩ (m 1 3),
      row4 ⟨m 2 0, m 2 1, m 2 2⟩ (m 2 3), row4 ⟨m 3 0, m 3 1, m 3 2⟩ (m 3 3)] := by
    simp [Mat.rows, List.ofFn_succ, row4]
  have h2 : applyMatrix m (pts ps) = applyHomogeneous (pts ps) (.mat 4 m.rows) := by
    have hl : m.rows.length = 4 := by simp [Mat.rows]
    unfold applyHomogeneous applyMatrix pts
    simp only
    rw [if_neg (by simp), if_neg (by simp [hl])]
    have hp : padWithOnes (Arr.mat 3 (ps.map V3.toList)) =
        .ok (.mat 4 ((ps.map V3.toList).map fun r => r ++ [Num.lit 1])) := by simp [padWithOnes]
    rw [hp]; rfl
  rw [h2, hrows]
  unfold pts
  rw [h1]
  simp only [inner3, List.map_map]
  rfl

theorem applyMatrix_affine {m : Mat 4 4 ℝ} (h : Affine m) (ps : List (V3 ℝ)) :
    applyMatrix m (pts ps) = .ok (pts (ps.map (affMap m))) := by
  rw [applyMatrix_eq, if_pos]
  intro p _
  obtain ⟨h0, h1, h2, h3⟩ := h
  rw [h0, h1, h2, h3]; ring

theorem call_fwd {st : Composite ℝ} (h : ∀ t ∈ st, PairOk t) (ps : List (V3 ℝ)) (r) :
    callT st (pts ps) r false = .ok (pts (ps.map (through (selected st r)))) := by
  have h' : ∀ t ∈ selected st r, PairOk t := fun t ht => h t (mem_selected ht)
  unfold callT
  rw [matrixFor_fwd, applyMatrix_affine (fwd_affine h')]
  rw [show affMap ((selected st r).map (·.1)).reverse.prod = through (selected st r) from funext (fwd_map h')]

theorem call_rev {st : Composite ℝ} (h : ∀ t ∈ st, PairOk t) (ps : List (V3 ℝ)) (r) :
    callT st (pts ps) r true = .ok (pts (ps.map (back (selected st r)))) := by
  have h' : ∀ t ∈ selected st r, PairOk t := fun t ht => h t (mem_selected ht)
  unfold callT
  rw [matrixFor_rev, applyMatrix_affine (rev_affine h')]
  rw [show affMap ((selected st r).map (·.2)).prod = back (selected st r) from funext (rev_map h')]

/-! ### C53 -/

/-- **C53.** After any history of calls from the empty stack (calls that raise included) in which
explicit 4×4 matrices are affine and explicit reverse matrices are inverses: over any range, forward
then reverse, and reverse then forward, both return the original points. -/
theorem C53_roundtrip (inv : Mat 4 4 ℝ → PyM (Mat 4 4 ℝ)) (hinv : InvSpec inv) (svd : Svd3 ℝ) (ops : List (TOp ℝ))
    (hops : ∀ op ∈ ops, Reversible op) (r : Option (Option ℤ × Option ℤ)) (ps : List (V3 ℝ)) :
    ∃ out back, callT (runT inv svd [] ops) (pts ps) r false = .ok out ∧
      callT (runT inv svd [] ops) out r true = .ok (pts ps) ∧
      callT (runT inv svd [] ops) (pts ps) r true = .ok back ∧
      callT (runT inv svd [] ops) back r false = .ok (pts ps) := by
  have h := run_good hinv svd ops hops [] (by simp)
  have h' : ∀ t ∈ selected (runT inv svd [] ops) r, PairOk t := fun t ht => h t (mem_selected ht)
  refine ⟨_, _, call_fwd h ps r, ?_, call_rev h ps r, ?_⟩
  · rw [call_rev h, List.map_map, show back _ ∘ through (selected (runT inv svd [] ops) r) = id from
      funext (back_through h'), List.map_id]
  · rw [call_fwd h, List.map_map, show through _ ∘ back (selected (runT inv svd [] ops) r) = id from
      funext (through_back h'), List.map_id]

/-- **C53.** The same for the matrices: the reverse matrix of a range is the inverse of the forward
matrix. -/
theorem C53_matrices (inv : Mat 4 4 ℝ → PyM (Mat 4 4 ℝ)) (hinv : InvSpec inv) (svd : Svd3 ℝ) (ops : List (TOp ℝ))
    (hops : ∀ op ∈ ops, Reversible op) (r : Option (Option ℤ × Option ℤ)) :
    matrixFor (runT inv svd [] ops) r false * matrixFor (runT inv svd [] ops) r true = 1 := by
  have h := run_good hinv svd ops hops [] (by simp)
  have h' : ∀ t ∈ selected (runT inv svd [] ops) r, PairOk t := fun t ht => h t (mem_selected ht)
  rw [matrixFor_fwd, matrixFor_rev]
  generalize selected (runT inv svd [] ops) r = ts at h'
  rw [mul_eq_one_comm]
  induction ts with
  | nil => simp
  | cons t ts ih =>
    have ht := h' t List.mem_cons_self
    rw [List.map_cons, List.map_cons, List.reverse_cons, List.prod_append, List.prod_singleton, List.prod_cons, mul_assoc,
      ← mul_assoc (List.prod _), ih fun s hs => h' s (List.mem_cons_of_mem _ hs), one_mul, ht.2.2.2]

/-- `np.linalg.inv` in exact arithmetic -/
noncomputable def exactInv (a : Mat 4 4 ℝ) : PyM (Mat 4 4 ℝ) :=
  open Classical in if a.det = 0 then .error .LinAlgError else .ok a⁻¹

/-- the contract of `np.linalg.inv` can be met -/
theorem exactInv_spec : InvSpec exactInv := by
  constructor
  · intro a b h
    unfold exactInv at h
    split at h
    · cases h
    · rename_i hd
      cases h
      exact ⟨Matrix.mul_nonsing_inv a (Ne.isUnit hd), Matrix.nonsing_inv_mul a (Ne.isUnit hd)⟩
  · intro a e h
    unfold exactInv at h
    split at h
    · rename_i hd; cases h; exact ⟨hd, rfl⟩
    · cases h

/-- non-vacuity: a history with every kind of call, two of which raise -/
example : ∀ op ∈ ([.scale 2, .translate ⟨1, 2, 3⟩, .scale (-1), .rotate (.vec ⟨0, 0, 1⟩), .reorient ⟨0, 1, 0⟩ ⟨1, 0, 0⟩,
    .convertUnits (some "m") (some "cm"), .append3 (.wrong 2) none,
    .append4 (translation44 ⟨1, 0, 0⟩) none, .append4 (translation44 ⟨1, 0, 0⟩) (some (translation44 (-⟨1, 0, 0⟩)))] : List (TOp ℝ)),
    Reversible op := by
  simp [Reversible, affine_translation44, translation44_neg]

/-- an invertible 4×4 matrix that is not affine -/
def projective : Mat 4 4 ℝ := !![1, 0, 0, 0; 0, 1, 0, 0; 0, 0, 1, 0; 1, 0, 0, 1]

/-- **C53.** Without the affine hypothesis the claim fails: the matrix is invertible and accepted, and
then the call raises ValueError. -/
theorem C53_projective_witness : projective.det ≠ 0 ∧
    (append4 exactInv [] projective none).2 = .ok 0 ∧
    callT (append4 exactInv [] projective none).1 (pts [⟨1, 0, 0⟩]) none false = .error .ValueError := by
  have hdet : projective.det = 1 := by
    simp [projective, Matrix.det_succ_row_zero, Fin.sum_univ_succ, Fin.succAbove]
  have hinv : exactInv projective = .ok projective⁻¹ := by
    unfold exactInv; rw [if_neg (by rw [hdet]; exact one_ne_zero)]
  refine ⟨by rw [hdet]; exact one_ne_zero, ?_, ?_⟩
  · unfold append4; rw [hinv]; rfl
  · unfold append4 callT
    rw [hinv, matrixFor_fwd]
    simp only [List.nil_append, selected, List.map_cons, List.map_nil, List.reverse_singleton, List.prod_singleton]
    rw [applyMatrix_eq, if_neg]
    intro h
    have := h ⟨1, 0, 0⟩ (by simp)
    simp [projective] at this

/-! ### C54 -/

/-- **C54.** The transforms selected by a range are applied in the order appended; in reverse, each
undone from the last to the first.  The default range is all of them. -/
theorem C54_order (inv : Mat 4 4 ℝ → PyM (Mat 4 4 ℝ)) (hinv : InvSpec inv) (svd : Svd3 ℝ) (ops : List (TOp ℝ))
    (hops : ∀ op ∈ ops, Reversible op) (ps : List (V3 ℝ)) :
    let st := runT inv svd [] ops
    callT st (pts ps) none false = .ok (pts (ps.map fun p => st.foldl (fun q t => affMap t.1 q) p)) ∧
    callT st (pts ps) none true = .ok (pts (ps.map fun p => st.foldr (fun t q => affMap t.2 q) p)) ∧
    ∀ i j : ℤ,
      callT st (pts ps) (some (some i, some j)) false =
        .ok (pts (ps.map fun p => (pySlice st i j).foldl (fun q t => affMap t.1 q) p)) ∧
      callT st (pts ps) (some (some i, some j)) true =
        .ok (pts (ps.map fun p => (pySlice st i j).foldr (fun t q => affMap t.2 q) p)) := by
  have h := run_good hinv svd ops hops [] (by simp)
  exact ⟨call_fwd h ps none, call_rev h ps none, fun i j => ⟨call_fwd h ps (some (some i, some j)), call_rev h ps (some (some i, some j))⟩⟩

theorem pySlice_append {β : Type} (xs : List β) {i j k : ℤ} (hij : sliceBound xs.length i ≤ sliceBound xs.length j)
    (hjk : sliceBound xs.length j ≤ sliceBound xs.length k) : pySlice xs i k = pySlice xs i j ++ pySlice xs j k := by
  unfold pySlice
  obtain ⟨a, ha⟩ : ∃ a, a = sliceBound xs.length i := ⟨_, rfl⟩
  obtain ⟨b, hb⟩ : ∃ a, a = sliceBound xs.length j := ⟨_, rfl⟩
  obtain ⟨c, hc⟩ : ∃ a, a = sliceBound xs.length k := ⟨_, rfl⟩
  rw [← ha, ← hb] at hij
  rw [← hb, ← hc] at hjk
  rw [← ha, ← hb, ← hc]
  apply List.ext_getElem?
  intro n
  rw [List.getElem?_append]
  simp only [List.getElem?_drop, List.getElem?_take, List.length_drop, List.length_take]
  by_cases h1 : n < min b xs.length - a
  · rw [if_pos h1, if_pos (by omega), if_pos (by omega)]
  · rw [if_neg h1]
    by_cases hbl : b ≤ xs.length
    · by_cases h2 : a + n < c
      · rw [if_pos h2, if_pos (by omega)]; congr 1; omega
      · rw [if_neg h2, if_neg (by omega)]
    · rw [List.getElem?_eq_none (by omega), List.getElem?_eq_none (l := xs) (i := b + _) (by omega)]
      simp

/-- **C54.** Applying range (i, j) then (j, k) equals applying (i, k); in reverse, (j, k) then (i, j).
The bounds are any Python indices that denote positions in this order. -/
theorem C54_ranges (inv : Mat 4 4 ℝ → PyM (Mat 4 4 ℝ)) (hinv : InvSpec inv) (svd : Svd3 ℝ) (ops : List (TOp ℝ))
    (hops : ∀ op ∈ ops, Reversible op) (ps : List (V3 ℝ)) (i j k : ℤ) :
    let st := runT inv svd [] ops
    sliceBound st.length i ≤ sliceBound st.length j → sliceBound st.length j ≤ sliceBound st.length k →
    (callT st (pts ps) (some (some i, some j)) false >>= fun q => callT st q (some (some j, some k)) false) =
      callT st (pts ps) (some (some i, some k)) false ∧
    (callT st (pts ps) (some (some j, some k)) true >>= fun q => callT st q (some (some i, some j)) true) =
      callT st (pts ps) (some (some i, some k)) true := by
  intro st hij hjk
  have h := run_good hinv svd ops hops [] (by simp)
  have hs : selected st (some (some i, some k)) = selected st (some (some i, some j)) ++ selected st (some (some j, some k)) :=
    pySlice_append st hij hjk
  constructor
  · rw [call_fwd h, ok_bind, call_fwd h, call_fwd h, hs, List.map_map]
    congr 3
    funext p
    simp [through, List.foldl_append, st]
  · rw [call_rev h, ok_bind, call_rev h, call_rev h, hs, List.map_map]
    congr 3
    funext p
    simp [back, List.foldr_append, st]

/-- **C54.** In particular for natural numbers `i ≤ j ≤ k`. -/
theorem C54_ranges_nat (inv : Mat 4 4 ℝ → PyM (Mat 4 4 ℝ)) (hinv : InvSpec inv) (svd : Svd3 ℝ) (ops : List (TOp ℝ))
    (hops : ∀ op ∈ ops, Reversible op) (ps : List (V3 ℝ)) (i j k : ℕ) (hij : i ≤ j) (hjk : j ≤ k) :
    let st := runT inv svd [] ops
    (callT st (pts ps) (some (some (i : ℤ), some (j : ℤ))) false >>= fun q => callT st q (some (some (j : ℤ), some (k : ℤ))) false) =
      callT st (pts ps) (some (some (i : ℤ), some (k : ℤ))) false := by
  refine (C54_ranges inv hinv svd ops hops ps i j k ?_ ?_).1
  · unfold sliceBound; rw [if_neg (by omega), if_neg (by omega)]; omega
  · unfold sliceBound; rw [if_neg (by omega), if_neg (by omega)]; omega

/-- **C54.** The empty range is the identity, in both directions, for every stack. -/
theorem C54_empty (st : Composite ℝ) (ps : List (V3 ℝ)) (r : Option (Option ℤ × Option ℤ)) (h : selected st r = []) (b : Bool) :
    matrixFor st r b = 1 ∧ callT st (pts ps) r b = .ok (pts ps) := by
  have hm : matrixFor st r b = 1 := by
    cases b
    · rw [matrixFor_fwd, h]; rfl
    · rw [matrixFor_rev, h]; rfl
  refine ⟨hm, ?_⟩
  unfold callT
  rw [hm, applyMatrix_affine affine_one]
  rw [show affMap 1 = id from funext affMap_one, List.map_id]

/-- **C54.** Which ranges are empty: all those that end where they begin or before. -/
theorem C54_empty_iff (st : Composite ℝ) (i j : ℤ) :
    selected st (some (some i, some j)) = [] ↔ min (sliceBound st.length j) st.length ≤ sliceBound st.length i := by
  simp only [selected, pySlice, Option.getD_some]
  rw [List.drop_eq_nil_iff, List.length_take]

/-- a call pushed one transform and returned its index; points go forward by `f` and back by `g` -/
def Pushed (st : Composite ℝ) (out : Composite ℝ × PyM ℕ) (f g : V3 ℝ → V3 ℝ) : Prop :=
  ∃ F R, out = (st ++ [(F, R)], .ok st.length) ∧ Affine F ∧ Affine R ∧ (∀ p, affMap F p = f p) ∧ ∀ p, affMap R p = g p

theorem pushed_rot {inv} (st : Composite ℝ) (R : Mat 3 3 ℝ) :
    Pushed st (appendRotation inv st (.ok R)) (act R) (act R.transpose) :=
  ⟨_, _, rfl, affine_pad44 _, affine_pad44 _, affMap_pad44 _, affMap_pad44 _⟩

/-- **C54.** What each call does to the stack and what it returns. -/
theorem C54_push (inv : Mat 4 4 ℝ → PyM (Mat 4 4 ℝ)) (svd : Svd3 ℝ) (st : Composite ℝ) :
    (∀ s : ℝ, 0 < s → Pushed st (scaleT inv st s) (scale3 s) (scale3 s⁻¹)) ∧
    (∀ v : V3 ℝ, Pushed st (translateT inv st v) (fun p => p + v) (fun p => p - v)) ∧
    (∀ up look : V3 ℝ, ∀ R, rotationFromUpAndLook up look = .ok R → Pushed st (reorientT inv st up look) (act R) (act R.transpose)) ∧
    (∀ r R, asRotationMatrix svd r = .ok R → Pushed st (rotateT inv svd st r) (act R) (act R.transpose)) ∧
    (∀ f r : Mat 3 3 ℝ, Pushed st (append3 inv st (.mat f) (some (.mat r))) (act f) (act r)) ∧
    (∀ f r : Mat 4 4 ℝ, append4 inv st f (some r) = (st ++ [(f, r)], .ok st.length)) ∧
    (∀ f r : Mat 4 4 ℝ, inv f = .ok r → append4 inv st f none = (st ++ [(f, r)], .ok st.length)) := by
  refine ⟨?_, ?_, ?_, ?_, ?_, fun _ _ => rfl, ?_⟩
  · intro s hs
    refine ⟨pad44 (Mat.diag fun _ => s), pad44 (Mat.diag fun _ => Num.lit 1 / s), ?_, affine_pad44 _, affine_pad44 _, ?_, ?_⟩
    · unfold scaleT
      rw [if_neg (by simpa using hs)]; rfl
    · intro p; rw [affMap_pad44]; ext <;> simp [act_eq, Mat.diag, scale3]
    · intro p; rw [affMap_pad44]; ext <;> simp [act_eq, Mat.diag, scale3]
  · intro v
    refine ⟨_, _, rfl, affine_translation44 v, affine_translation44 _, affMap_translation44 v, ?_⟩
    intro p
    rw [affMap_translation44]; ext <;> simp [sub_eq_add_neg]
  · intro up look R h
    unfold reorientT; rw [h]; exact pushed_rot st R
  · intro r R h
    unfold rotateT; rw [h]; exact pushed_rot st R
  · intro f r
    exact ⟨_, _, rfl, affine_pad44 _, affine_pad44 _, affMap_pad44 _, affMap_pad44 _⟩
  · intro f r h
    unfold append4; simp only [h]

theorem factor_pos {a b c : Option String} {r : ℝ} (h : Units.factor (α := ℝ) a b c = .ok r) : 0 < r := by
  unfold Units.factor at h
  split at h
  · cases h; simp
  · split at h
    · cases h; simp
    · obtain ⟨f, hf, h⟩ := bind_eq_ok.mp h
      obtain ⟨t, ht, h⟩ := bind_eq_ok.mp h
      obtain ⟨n, A, rfl, hA, rfl⟩ := Units.lookup_ok hf
      obtain ⟨m, B, rfl, hB, rfl⟩ := Units.lookup_ok ht
      have hA := Units.size_pos hA
      have hB := Units.size_pos hB
      split at h
      · cases h
      · split at h
        · cases h
        · rw [Units.pyDiv_real hB.ne'] at h
          cases h; exact div_pos hA hB

/-- **C54.** `convert_units` is `scale` by the conversion factor between units of length (which is
always positive), without the index; without such a factor it raises and changes nothing. -/
theorem C54_convert_units (inv : Mat 4 4 ℝ → PyM (Mat 4 4 ℝ)) (st : Composite ℝ) (a b : Option String) :
    (∀ e, Units.factor (α := ℝ) a b (some "length") = .error e → convertUnitsT inv st a b = (st, .error e)) ∧
    (∀ f, Units.factor (α := ℝ) a b (some "length") = .ok f →
      ∃ st', Pushed st (st', .ok st.length) (scale3 f) (scale3 f⁻¹) ∧ convertUnitsT inv st a b = (st', .ok ())) := by
  constructor
  · intro e h; unfold convertUnitsT; rw [h]
  · intro f h
    have hp := (C54_push inv (fun _ => .error .LinAlgError) st).1 f (factor_pos h)
    obtain ⟨F, R, hs, hrest⟩ := hp
    refine ⟨_, ⟨F, R, rfl, hrest⟩, ?_⟩
    unfold convertUnitsT; rw [h]; simp only [hs]; rfl

/-- **C54.** A nonpositive scale factor raises ValueError and leaves the stack as it was; so does a
matrix of the wrong shape (TypeError unless it is one-dimensional), a singular matrix, and failing
arguments of `reorient` and `rotate`. -/
theorem C54_rejected (inv : Mat 4 4 ℝ → PyM (Mat 4 4 ℝ)) (svd : Svd3 ℝ) (st : Composite ℝ) :
    (∀ s : ℝ, s ≤ 0 → scaleT inv st s = (st, .error .ValueError)) ∧
    (∀ r, append3 inv st (.wrong 1) r = (st, .error .ValueError)) ∧
    (∀ k r, k ≠ 1 → append3 inv st (.wrong k) r = (st, .error .TypeError)) ∧
    (∀ f e, inv f = .error e → append4 inv st f none = (st, .error e)) ∧
    (∀ up look : V3 ℝ, cross3 up look = zero3 → reorientT inv st up look = (st, .error .ValueError)) ∧
    (∀ r e, asRotationMatrix svd r = .error e → rotateT inv svd st r = (st, .error e)) := by
  refine ⟨?_, fun _ => rfl, ?_, ?_, ?_, ?_⟩
  · intro s hs; unfold scaleT; rw [if_pos (by simpa using hs)]
  · intro k r hk
    simp only [append3, convert33To44, if_neg hk]
  · intro f e h; unfold append4; simp only [h]
  · intro up look h; unfold reorientT; rw [C49_errors up look h]; rfl
  · intro r e h; unfold rotateT; rw [h]; rfl

/-- **C54.** Points that are not rows of three numbers raise ValueError. -/
theorem C54_shapes (st : Composite ℝ) (r : Option (Option ℤ × Option ℤ)) (b : Bool) (a : Arr ℝ)
    (h : ∀ rows, a ≠ .mat 3 rows) : callT st a r b = .error .ValueError := by
  have hp : padWithOnes a = .error .ValueError := by
    cases a with
    | vec _ => rfl
    | other _ => rfl
    | mat n rows =>
      have hn : n ≠ 3 := by rintro rfl; exact h rows rfl
      simp only [padWithOnes, if_pos hn]
  unfold callT applyMatrix
  rw [hp]; rfl

/-- **C54.** `convert_44_to_33` keeps the part of the matrix that acts on differences of points, so nothing of the translation; it
undoes `convert_33_to_44`. -/
theorem C54_corner (m : Mat 4 4 ℝ) :
    (∀ p q, act (convert44To33 m) (vec3 p q) = vec3 (affMap m p) (affMap m q)) ∧
    ∀ R : Mat 3 3 ℝ, ∃ m', convert33To44 (.mat R) = .ok m' ∧ convert44To33 m' = R := by
  refine ⟨?_, ?_⟩
  · intro p q
    simp only [act_eq, convert44To33, Matrix.of_apply, affMap, vec3]
    ext <;> simp only [show (0 : Fin 3).castSucc = (0 : Fin 4) from rfl, show (1 : Fin 3).castSucc = (1 : Fin 4) from rfl,
      show (2 : Fin 3).castSucc = (2 : Fin 4) from rfl] <;> ring
  · intro R
    refine ⟨_, rfl, ?_⟩
    ext i j
    fin_cases i <;> fin_cases j <;> rfl

/-- **C54.** In floating point `nan <= 0` is false: a NaN scale factor is accepted. -/
theorem C54_nan_scale (inv : Mat 4 4 Fl → PyM (Mat 4 4 Fl)) (st : Composite Fl) :
    (scaleT inv st Fl.nan).2 = .ok st.length := by
  unfold scaleT
  rw [if_neg (by simp)]
  rfl

end Blmath.Props
