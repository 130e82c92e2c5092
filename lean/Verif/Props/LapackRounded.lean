import Verif.Props.Lapack
import Verif.Props.LineSolve

/-!
Property C151 in rounded arithmetic: residuals of LAPACK's elimination for matrices of any size, and matrices reported as singular.
-/

namespace Blmath.Props
open Blmath.Linalg Blmath.Spec Blmath.Geometry Blmath.Proofs

namespace LA
variable {rnd : ℝ → ℝ} {u : ℝ} {n k : ℕ}

theorem idamax_rd (h : Rounding rnd u) (f : Fin (n + 1) → Rd rnd) (i : Fin (n + 1)) : |(f i).val| ≤ |(f (idamax f)).val| := by
  have := (fold_best (fun b i => Num.lt (npAbs (f b)) (npAbs (f i)) = true) (fun i => |(f i).val|) (by
    intro a b; rw [Rd.lt_iff, LU.npAbs_rd h, LU.npAbs_rd h]) (List.finRange (n + 1)) 0).2 i (List.mem_finRange i)
  exact this

/-- the multiplier and its roundings -/
theorem scal_rd (h : Rounding rnd u) (hu : u ≤ 1 / 1000) (a c : Rd rnd) (ha : a.val ≠ 0) (hac : |c.val| ≤ |a.val|) :
    |c.val - (scal a c).val * a.val| ≤ 2.001 * u * |c.val| ∧ |(scal a c).val| ≤ 1.0021 := by
  obtain ⟨ε, hε, e, -⟩ := LU.multiplier h hu a c ha hac
  change (scal a c).val * a.val = c.val * (1 + ε) at e
  constructor
  · have e' : c.val - (scal a c).val * a.val = c.val * (-ε) := by rw [e]; ring
    rw [e', abs_mul, abs_neg, mul_comm]
    exact mul_le_mul_of_nonneg_right hε (abs_nonneg _)
  · have h1 := congrArg abs e
    rw [abs_mul, abs_mul] at h1
    have h2 : |1 + ε| ≤ 1.0021 := by
      have := abs_add_le 1 ε
      rw [abs_one] at this
      linarith
    have h3 : |c.val| * |1 + ε| ≤ |a.val| * 1.0021 := mul_le_mul hac h2 (abs_nonneg _) (abs_nonneg _)
    have hp := abs_pos.mpr ha
    nlinarith

/-- an entry after a step of elimination -/
theorem reduce_rd (h : Rounding rnd u) (hu : u ≤ 1 / 1000) {l a d : Rd rnd} {E : ℝ} (hl : |l.val| ≤ 1.0021) (ha : |a.val| ≤ E) (hd : |d.val| ≤ E) :
    |(d - l * a).val| ≤ 2.01 * E ∧ |d.val - l.val * a.val - (d - l * a).val| ≤ 3.01 * u * E := by
  have hE : 0 ≤ E := le_trans (abs_nonneg _) ha
  obtain ⟨s, hs, es⟩ := LU.rel h (l.val * a.val)
  obtain ⟨t, ht, et⟩ := LU.rel h (d.val - rnd (l.val * a.val))
  have hla := LU.mul_le_of hl ha
  have hw : |rnd (l.val * a.val)| ≤ 1.001 * (1.0021 * E) := by rw [es]; exact LU.grow hu hla hs
  have hdw : |d.val - rnd (l.val * a.val)| ≤ 2.0032 * E := by
    have := abs_sub d.val (rnd (l.val * a.val))
    linarith
  rw [Rd.val_sub, Rd.val_mul]
  constructor
  · rw [et]
    have := LU.grow hu hdw ht
    linarith
  · have e : d.val - l.val * a.val - rnd (d.val - rnd (l.val * a.val)) = l.val * a.val * s - (d.val - rnd (l.val * a.val)) * t := by
      rw [et, es]; ring
    rw [e]
    have h1 := LU.mul_le_of hla hs
    have h2 := LU.mul_le_of hdw ht
    have h3 := abs_sub (l.val * a.val * s) ((d.val - rnd (l.val * a.val)) * t)
    have hu0 : 0 ≤ u * E := mul_nonneg h.nonneg hE
    have j1 : 1.0021 * E * u = 1.0021 * (u * E) := by ring
    have j2 : 2.0032 * E * u = 2.0032 * (u * E) := by ring
    have j3 : 3.01 * u * E = 3.01 * (u * E) := by ring
    rw [j1] at h1
    rw [j2] at h2
    rw [j3]
    linarith

/-- subtracting one after the other -/
theorem subAll_rd (h : Rounding rnd u) (hu : u ≤ 1 / 1000) (b : Rd rnd) : ∀ {n : ℕ} (f : Fin n → Rd rnd), (n : ℝ) * u ≤ 1 / 100 →
    |b.val - (subAll b f).val - ∑ i, (f i).val| ≤ 1.1 * n * u * (|(subAll b f).val| + ∑ i, |(f i).val|) := by
  intro n
  induction n with
  | zero => intro f _; simp [subAll]
  | succ n ih =>
    intro f hn
    push_cast at hn ⊢
    have hu0 := h.nonneg
    have hn' : (n : ℝ) * u ≤ 1 / 100 := by nlinarith
    have IH := ih (fun i => f i.succ) hn'
    rw [Fin.sum_univ_succ, Fin.sum_univ_succ]
    set t := subAll b (fun i => f i.succ) with ht
    have hS : (subAll b f).val = rnd (t.val - (f 0).val) := rfl
    obtain ⟨δ, hδ, e⟩ := LU.rel h (t.val - (f 0).val)
    set S := (subAll b f).val with hSdef
    set A := ∑ i : Fin n, (f i.succ).val with hA
    set B := ∑ i : Fin n, |(f i.succ).val| with hB
    have hB0 : 0 ≤ B := Finset.sum_nonneg fun _ _ => abs_nonneg _
    have hS2 : S = (t.val - (f 0).val) * (1 + δ) := hS.trans e
    have hd1 : |t.val - (f 0).val| ≤ 1.0011 * |S| := by
      have h1 := congrArg abs hS2
      rw [abs_mul] at h1
      have h2 : 0.999 ≤ |1 + δ| := (LU.pos_of hu hδ).trans (le_abs_self _)
      nlinarith [abs_nonneg (t.val - (f 0).val)]
    have hd2 : |t.val - (f 0).val| ≤ |S| + 1.0011 * u * |S| := by
      have h1 : |t.val - (f 0).val - S| ≤ u * |t.val - (f 0).val| := by
        rw [hS, abs_sub_comm]; exact h.err _
      have h2 := abs_sub_abs_le_abs_sub (t.val - (f 0).val) S
      nlinarith
    have ht' : |t.val| ≤ |S| + 1.0011 * u * |S| + |(f 0).val| := by
      have := abs_add_le (t.val - (f 0).val) (f 0).val
      rw [sub_add_cancel] at this
      linarith
    have e2 : b.val - S - ((f 0).val + A) = (b.val - t.val - A) + (t.val - (f 0).val) * (-δ) := by
      rw [hS2]; ring
    rw [e2]
    have h3 : |(t.val - (f 0).val) * (-δ)| ≤ 1.0011 * |S| * u := LU.mul_le_of hd1 (by rwa [abs_neg])
    refine (abs_add_le _ _).trans ?_
    have hnu : 0 ≤ (n : ℝ) * u := mul_nonneg (Nat.cast_nonneg n) hu0
    have h4 : 1.1 * n * u * (|t.val| + B) ≤ 1.1 * (n * u) * (|S| + 1.0011 * u * |S| + |(f 0).val| + B) := by
      have : 1.1 * (n : ℝ) * u = 1.1 * (n * u) := by ring
      rw [this]
      exact mul_le_mul_of_nonneg_left (by linarith) (by linarith)
    have h5 : (n * u) * (u * |S|) ≤ 1 / 100 * (u * |S|) := mul_le_mul_of_nonneg_right hn' (mul_nonneg hu0 (abs_nonneg _))
    have h6 : 0 ≤ u * |S| := mul_nonneg hu0 (abs_nonneg _)
    have h7 : 0 ≤ u * |(f 0).val| := mul_nonneg hu0 (abs_nonneg _)
    have h8 : 0 ≤ u * B := mul_nonneg hu0 hB0
    have j1 : 1.1 * (n * u) * (|S| + 1.0011 * u * |S| + |(f 0).val| + B) =
        1.1 * ((n * u) * |S|) + 1.10121 * ((n * u) * (u * |S|)) + 1.1 * ((n * u) * |(f 0).val|) + 1.1 * ((n * u) * B) := by ring
    have j2 : 1.1 * ((n : ℝ) + 1) * u * (|S| + (|(f 0).val| + B)) =
        1.1 * ((n * u) * |S|) + 1.1 * ((n * u) * |(f 0).val|) + 1.1 * ((n * u) * B) + 1.1 * (u * |S|) + 1.1 * (u * |(f 0).val|) + 1.1 * (u * B) := by ring
    have j3 : 1.0011 * |S| * u = 1.0011 * (u * |S|) := by ring
    rw [j1] at h4
    rw [j2]
    rw [j3] at h3
    linarith

/-- the first row: the unknown that is found last -/
theorem first_row (h : Rounding rnd u) (hu : u ≤ 1 / 1000) (hn : (n : ℝ) * u ≤ 1 / 100) {a b x0 : Rd rnd} {c x : Fin n → Rd rnd} {E X : ℝ}
    (ha : a.val ≠ 0) (hE : |a.val| ≤ E) (hc : ∀ i, |(c i).val| ≤ E) (hx0 : |x0.val| ≤ X) (hx : ∀ i, |(x i).val| ≤ X)
    (e : x0 = subAll b (fun i => c i * x i) / a) :
    |a.val * x0.val + ∑ i, (c i).val * (x i).val - b.val| ≤ 2 * ((n : ℝ) + 1) ^ 2 * (u * (E * X)) := by
  have hu0 := h.nonneg
  have hE0 : 0 ≤ E := le_trans (abs_nonneg _) hE
  have hX0 : 0 ≤ X := le_trans (abs_nonneg _) hx0
  have hEX := mul_nonneg hE0 hX0
  have k1 := subAll_rd h hu b (fun i => c i * x i) hn
  set S := (subAll b (fun i => c i * x i)).val with hS
  have e0 : x0.val = rnd (S / a.val) := by rw [e]; rfl
  obtain ⟨δ, hδ, e1⟩ := LU.rel h (S / a.val)
  have e2 : a.val * x0.val = S * (1 + δ) := by rw [e0, e1]; field_simp
  have hax := LU.mul_le_of hE hx0
  have hSle : |S| ≤ 1.0011 * (E * X) := by
    rw [e2, abs_mul] at hax
    have h2 : 0.999 ≤ |1 + δ| := (LU.pos_of hu hδ).trans (le_abs_self _)
    nlinarith [abs_nonneg S]
  have hp : ∀ i, |(c i * x i).val| ≤ 1.001 * (E * X) := fun i => by
    obtain ⟨t, ht, et⟩ := LU.rel h ((c i).val * (x i).val)
    rw [Rd.val_mul, et]
    exact LU.grow hu (LU.mul_le_of (hc i) (hx i)) ht
  have hq : ∀ i, |(c i).val * (x i).val - (c i * x i).val| ≤ u * (E * X) := fun i => by
    rw [Rd.val_mul, abs_sub_comm]
    exact (h.err _).trans (mul_le_mul_of_nonneg_left (LU.mul_le_of (hc i) (hx i)) hu0)
  have s1 : ∑ i, |(c i * x i).val| ≤ n * (1.001 * (E * X)) := by
    have := Finset.sum_le_sum fun i (_ : i ∈ Finset.univ) => hp i
    simpa using this
  have s2 : |∑ i, ((c i).val * (x i).val - (c i * x i).val)| ≤ n * (u * (E * X)) := by
    refine (Finset.abs_sum_le_sum_abs _ _).trans ?_
    have := Finset.sum_le_sum fun i (_ : i ∈ Finset.univ) => hq i
    simpa using this
  have s3 : |S * δ| ≤ 1.0011 * (E * X) * u := LU.mul_le_of hSle hδ
  have e3 : a.val * x0.val + ∑ i, (c i).val * (x i).val - b.val =
      S * δ + ∑ i, ((c i).val * (x i).val - (c i * x i).val) - (b.val - S - ∑ i, (c i * x i).val) := by
    rw [Finset.sum_sub_distrib, e2]; ring
  rw [e3]
  have i1 := abs_sub (S * δ + ∑ i, ((c i).val * (x i).val - (c i * x i).val)) (b.val - S - ∑ i, (c i * x i).val)
  have i2 := abs_add_le (S * δ) (∑ i, ((c i).val * (x i).val - (c i * x i).val))
  set W := u * (E * X) with hW
  have hW0 : 0 ≤ W := mul_nonneg hu0 hEX
  have hn0 : (0 : ℝ) ≤ n := Nat.cast_nonneg n
  have k2 : 1.1 * n * u * (|S| + ∑ i, |(c i * x i).val|) ≤ 1.1 * n * u * (1.0011 * (E * X) + n * (1.001 * (E * X))) :=
    mul_le_mul_of_nonneg_left (add_le_add hSle s1) (mul_nonneg (mul_nonneg (by norm_num) hn0) hu0)
  have j1 : 1.1 * n * u * (1.0011 * (E * X) + n * (1.001 * (E * X))) = 1.10121 * (n * W) + 1.1011 * (n * (n * W)) := by rw [hW]; ring
  have j2 : 1.0011 * (E * X) * u = 1.0011 * W := by rw [hW]; ring
  have j3 : 2 * ((n : ℝ) + 1) ^ 2 * W = 2 * (n * (n * W)) + 4 * (n * W) + 2 * W := by ring
  rw [j1] at k2
  rw [j2] at s3
  rw [j3]
  have n1 : 0 ≤ n * W := mul_nonneg hn0 hW0
  have n2 : 0 ≤ n * (n * W) := mul_nonneg hn0 n1
  linarith

/-- one step of elimination -/
theorem gesv_step (a : Mat (n + 1) (n + 1) (Rd rnd)) (b : Mat (n + 1) k (Rd rnd)) :
    let p := idamax fun i => a i 0
    let a' := laswp p a
    let b' := laswp p b
    gesv a b = if Num.eq (a' 0 0) (Num.lit 0) then raise .LinAlgError
      else (gesv (reduce (multipliers a') (cols a')) (reduce (multipliers a') b')).map (backSubst a' b') := by
  rw [gesv]

theorem lit0 (h : Rounding rnd u) : (Num.lit 0 : Rd rnd).val = 0 := by rw [Rd.val_lit]; push_cast; exact LU.zero h

theorem pow_step (n : ℕ) : (2.01 : ℝ) ^ (n + 1) = 2.01 * 2.01 ^ n := by rw [pow_succ]; ring

theorem gesv_residual (h : Rounding rnd u) (hu : u ≤ 1 / 1000) {X : ℝ} : ∀ (n : ℕ) (a : Mat n n (Rd rnd)) (b x : Mat n k (Rd rnd)) (E R : ℝ),
    (n : ℝ) * u ≤ 1 / 100 → (∀ i j, |(a i j).val| ≤ E) → (∀ i j, |(b i j).val| ≤ R) → (∀ i j, |(x i j).val| ≤ X) → gesv a b = .ok x →
    ∀ i j, |∑ m, (a i m).val * (x m j).val - (b i j).val| ≤
      (18 * 2.01 ^ n - (2 * (n : ℝ) ^ 2 + 11 * n + 18)) * (u * (E * X)) + 3 * (2.01 ^ n - 1) * (u * R) := by
  intro n
  induction n with
  | zero => intro a b x E R _ _ _ _ _ i; exact i.elim0
  | succ n ih =>
    intro a b x E R hn ha hb hx hg
    have hu0 := h.nonneg
    push_cast at hn
    have hn' : (n : ℝ) * u ≤ 1 / 100 := by nlinarith
    have hstep := gesv_step a b
    dsimp only at hstep
    set p := idamax fun i => a i 0 with hp
    set a' : Mat (n + 1) (n + 1) (Rd rnd) := laswp p a with ha'
    set b' : Mat (n + 1) k (Rd rnd) := laswp p b with hb'
    have hA : ∀ i j, |(a' i j).val| ≤ E := fun i j => ha _ _
    have hB : ∀ i j, |(b' i j).val| ≤ R := fun i j => hb _ _
    have hpiv : ∀ i, |(a' i 0).val| ≤ |(a' 0 0).val| := fun i => by
      have : a' 0 0 = a p 0 := by simp [ha', laswp]
      rw [this]
      exact idamax_rd h (fun i => a i 0) _
    rw [hg] at hstep
    split at hstep
    · cases hstep
    · rename_i h0
      rw [Rd.eq_iff, lit0 h] at h0
      set l := multipliers a' with hl
      have hl1 : ∀ i, |(l i).val| ≤ 1.0021 := fun i => (scal_rd h hu _ _ h0 (hpiv i.succ)).2
      have hl2 : ∀ i, |(a' i.succ 0).val - (l i).val * (a' 0 0).val| ≤ 2.001 * u * |(a' i.succ 0).val| := fun i => (scal_rd h hu _ _ h0 (hpiv i.succ)).1
      cases hs : gesv (reduce l (cols a')) (reduce l b') with
      | error e => rw [hs] at hstep; cases hstep
      | ok x' =>
        rw [hs] at hstep
        have hxx : x = backSubst a' b' x' := Except.ok.inj hstep
        have hxs : ∀ i j, x i.succ j = x' i j := fun i j => by rw [hxx]; rfl
        have hx0 : ∀ j, x 0 j = subAll (b' 0 j) (fun i => a' 0 i.succ * x' i j) / a' 0 0 := fun j => by rw [hxx]; rfl
        have IH := ih (reduce l (cols a')) (reduce l b') x' (2.01 * E) (2.01 * R) hn'
          (fun i j => (reduce_rd h hu (hl1 i) (hA 0 j.succ) (hA i.succ j.succ)).1) (fun i j => (reduce_rd h hu (hl1 i) (hB 0 j) (hB i.succ j)).1)
          (fun i j => by rw [← hxs]; exact hx _ _) hs
        have hE : 0 ≤ E := le_trans (abs_nonneg _) (hA 0 0)
        suffices key : ∀ i j, |∑ m, (a' i m).val * (x m j).val - (b' i j).val| ≤
            (18 * 2.01 ^ (n + 1) - (2 * ((n : ℝ) + 1) ^ 2 + 11 * ((n : ℝ) + 1) + 18)) * (u * (E * X)) + 3 * (2.01 ^ (n + 1) - 1) * (u * R) by
          intro i j
          have := key (Equiv.swap 0 p i) j
          push_cast
          simpa [ha', hb', laswp] using this
        intro i j
        have hX : 0 ≤ X := le_trans (abs_nonneg _) (hx 0 j)
        have hR : 0 ≤ R := le_trans (abs_nonneg _) (hB 0 j)
        have row0 := first_row h hu hn' (c := fun i => a' 0 i.succ) (x := fun i => x' i j) h0 (hA 0 0) (fun i => hA 0 i.succ) (hx 0 j)
          (fun i => by rw [← hxs]; exact hx _ _) (hx0 j)
        set W := u * (E * X) with hW
        set V := u * R with hV
        have hW0 : 0 ≤ W := mul_nonneg hu0 (mul_nonneg hE hX)
        have hV0 : 0 ≤ V := mul_nonneg hu0 hR
        have hn0 : (0 : ℝ) ≤ n := Nat.cast_nonneg n
        have pw : (1 : ℝ) + 1.01 * n + 1.01 * 1.01 * (n * (n - 1)) / 2 ≤ 2.01 ^ n := by
          clear IH row0
          have : ∀ m : ℕ, (1 : ℝ) + 1.01 * m + 1.01 * 1.01 * (m * (m - 1)) / 2 ≤ 2.01 ^ m ∧ (1 : ℝ) + 1.01 * m ≤ 2.01 ^ m := by
            intro m
            induction m with
            | zero => norm_num
            | succ m im =>
              obtain ⟨i1, i2⟩ := im
              rw [pow_step]
              push_cast
              have hm : (0 : ℝ) ≤ m := Nat.cast_nonneg m
              constructor <;> nlinarith
          exact (this n).1
        rw [pow_step]
        set Q := (2.01 : ℝ) ^ n with hQ
        rw [Fin.sum_univ_succ]
        simp only [hxs]
        refine Fin.cases ?_ (fun i => ?_) i
        · refine row0.trans ?_
          have c1 : 2 * ((n : ℝ) + 1) ^ 2 ≤ 18 * (2.01 * Q) - (2 * ((n : ℝ) + 1) ^ 2 + 11 * ((n : ℝ) + 1) + 18) := by nlinarith [sq_nonneg ((n : ℝ) - 1), sq_nonneg (n : ℝ)]
          have c2 : 0 ≤ 3 * (2.01 * Q - 1) := by nlinarith
          have := mul_le_mul_of_nonneg_right c1 hW0
          have := mul_nonneg c2 hV0
          linarith
        · have I := IH i j
          set r0 := (a' 0 0).val * (x 0 j).val + ∑ m : Fin n, (a' 0 m.succ).val * (x' m j).val - (b' 0 j).val with hr0
          have e : (a' i.succ 0).val * (x 0 j).val + ∑ m : Fin n, (a' i.succ m.succ).val * (x' m j).val - (b' i.succ j).val =
              ((a' i.succ 0).val - (l i).val * (a' 0 0).val) * (x 0 j).val + (l i).val * r0 +
              (∑ m, (reduce l (cols a') i m).val * (x' m j).val - (reduce l b' i j).val) +
              ∑ m, ((a' i.succ (Fin.succ m)).val - (l i).val * (a' 0 (Fin.succ m)).val - (reduce l (cols a') i m).val) * (x' m j).val -
              ((b' i.succ j).val - (l i).val * (b' 0 j).val - (reduce l b' i j).val) := by
            have e1 : ∑ m, ((a' i.succ (Fin.succ m)).val - (l i).val * (a' 0 (Fin.succ m)).val - (reduce l (cols a') i m).val) * (x' m j).val =
                ∑ m : Fin n, (a' i.succ m.succ).val * (x' m j).val - (l i).val * ∑ m : Fin n, (a' 0 m.succ).val * (x' m j).val -
                  ∑ m, (reduce l (cols a') i m).val * (x' m j).val := by
              rw [Finset.mul_sum, ← Finset.sum_sub_distrib, ← Finset.sum_sub_distrib]
              exact Finset.sum_congr rfl fun m _ => by ring
            rw [e1, hr0]
            ring
          have t1 : |((a' i.succ 0).val - (l i).val * (a' 0 0).val) * (x 0 j).val| ≤ 2.001 * W := by
            have := LU.mul_le_of ((hl2 i).trans (mul_le_mul_of_nonneg_left (hA i.succ 0) (by linarith))) (hx 0 j)
            have j1 : 2.001 * u * E * X = 2.001 * W := by rw [hW]; ring
            rwa [j1] at this
          have t2 : |(l i).val * r0| ≤ 1.0021 * (2 * ((n : ℝ) + 1) ^ 2 * W) := LU.mul_le_of (hl1 i) row0
          have t3 : |∑ m, ((a' i.succ (Fin.succ m)).val - (l i).val * (a' 0 (Fin.succ m)).val - (reduce l (cols a') i m).val) * (x' m j).val| ≤
              n * (3.01 * W) := by
            refine (Finset.abs_sum_le_sum_abs _ _).trans ?_
            have : ∀ m : Fin n, |((a' i.succ (Fin.succ m)).val - (l i).val * (a' 0 (Fin.succ m)).val - (reduce l (cols a') i m).val) * (x' m j).val| ≤ 3.01 * W := by
              intro m
              have := LU.mul_le_of (reduce_rd h hu (hl1 i) (hA 0 m.succ) (hA i.succ m.succ)).2 (by rw [← hxs]; exact hx m.succ j : |(x' m j).val| ≤ X)
              have j1 : 3.01 * u * E * X = 3.01 * W := by rw [hW]; ring
              rwa [j1] at this
            have := Finset.sum_le_sum fun m (_ : m ∈ Finset.univ) => this m
            simpa using this
          have t4 : |(b' i.succ j).val - (l i).val * (b' 0 j).val - (reduce l b' i j).val| ≤ 3.01 * V := by
            have := (reduce_rd h hu (hl1 i) (hB 0 j) (hB i.succ j)).2
            have j1 : 3.01 * u * R = 3.01 * V := by rw [hV]; ring
            rwa [j1] at this
          have jI : (18 * Q - (2 * (n : ℝ) ^ 2 + 11 * n + 18)) * (u * (2.01 * E * X)) + 3 * (Q - 1) * (u * (2.01 * R)) =
              (18 * Q - (2 * (n : ℝ) ^ 2 + 11 * n + 18)) * 2.01 * W + 3 * (Q - 1) * 2.01 * V := by rw [hW, hV]; ring
          rw [jI] at I
          rw [e]
          have i1 := abs_sub (((a' i.succ 0).val - (l i).val * (a' 0 0).val) * (x 0 j).val + (l i).val * r0 +
              (∑ m, (reduce l (cols a') i m).val * (x' m j).val - (reduce l b' i j).val) +
              ∑ m, ((a' i.succ (Fin.succ m)).val - (l i).val * (a' 0 (Fin.succ m)).val - (reduce l (cols a') i m).val) * (x' m j).val)
              ((b' i.succ j).val - (l i).val * (b' 0 j).val - (reduce l b' i j).val)
          have i2 := abs_add_le (((a' i.succ 0).val - (l i).val * (a' 0 0).val) * (x 0 j).val + (l i).val * r0 +
              (∑ m, (reduce l (cols a') i m).val * (x' m j).val - (reduce l b' i j).val))
              (∑ m, ((a' i.succ (Fin.succ m)).val - (l i).val * (a' 0 (Fin.succ m)).val - (reduce l (cols a') i m).val) * (x' m j).val)
          have i3 := abs_add_le (((a' i.succ 0).val - (l i).val * (a' 0 0).val) * (x 0 j).val + (l i).val * r0)
              (∑ m, (reduce l (cols a') i m).val * (x' m j).val - (reduce l b' i j).val)
          have i4 := abs_add_le (((a' i.succ 0).val - (l i).val * (a' 0 0).val) * (x 0 j).val) ((l i).val * r0)
          have c1 : 2.001 + 1.0021 * (2 * ((n : ℝ) + 1) ^ 2) + (18 * Q - (2 * (n : ℝ) ^ 2 + 11 * n + 18)) * 2.01 + n * 3.01 ≤
              18 * (2.01 * Q) - (2 * ((n : ℝ) + 1) ^ 2 + 11 * ((n : ℝ) + 1) + 18) := by nlinarith
          have c2 : 3 * (Q - 1) * 2.01 + 3.01 ≤ 3 * (2.01 * Q - 1) := by linarith
          have f1 := mul_le_mul_of_nonneg_right c1 hW0
          have f2 := mul_le_mul_of_nonneg_right c2 hV0
          have g1 : (2.001 + 1.0021 * (2 * ((n : ℝ) + 1) ^ 2) + (18 * Q - (2 * (n : ℝ) ^ 2 + 11 * n + 18)) * 2.01 + n * 3.01) * W =
              2.001 * W + 1.0021 * (2 * ((n : ℝ) + 1) ^ 2 * W) + (18 * Q - (2 * (n : ℝ) ^ 2 + 11 * n + 18)) * 2.01 * W + n * (3.01 * W) := by ring
          have g2 : (3 * (Q - 1) * 2.01 + 3.01) * V = 3 * (Q - 1) * 2.01 * V + 3.01 * V := by ring
          rw [g1] at f1
          rw [g2] at f2
          linarith

theorem gesv_singular (h : Rounding rnd u) (hu : u ≤ 1 / 1000) : ∀ (n : ℕ) (a : Mat n n (Rd rnd)) (b : Mat n k (Rd rnd)) (E : ℝ) (e : PyErr),
    (∀ i j, |(a i j).val| ≤ E) → gesv a b = .error e → e = .LinAlgError ∧
    ∃ s : Matrix (Fin n) (Fin n) ℝ, s.det = 0 ∧ ∀ i j, |s i j - (a i j).val| ≤ 3 * (2.01 ^ n - 1) * (u * E) := by
  intro n
  induction n with
  | zero => intro a b E e _ hg; cases hg
  | succ n ih =>
    intro a b E e ha hg
    have hu0 := h.nonneg
    have hstep := gesv_step a b
    dsimp only at hstep
    set p := idamax fun i => a i 0 with hp
    set a' : Mat (n + 1) (n + 1) (Rd rnd) := laswp p a with ha'
    set b' : Mat (n + 1) k (Rd rnd) := laswp p b with hb'
    have hA : ∀ i j, |(a' i j).val| ≤ E := fun i j => ha _ _
    have hE : 0 ≤ E := le_trans (abs_nonneg _) (hA 0 0)
    have hW : 0 ≤ u * E := mul_nonneg hu0 hE
    have hpiv : ∀ i, |(a' i 0).val| ≤ |(a' 0 0).val| := fun i => by
      have : a' 0 0 = a p 0 := by simp [ha', laswp]
      rw [this]
      exact idamax_rd h (fun i => a i 0) _
    have hQ : (1 : ℝ) ≤ 2.01 ^ n := one_le_pow₀ (by norm_num)
    suffices key : e = .LinAlgError ∧ ∃ s : Matrix (Fin (n + 1)) (Fin (n + 1)) ℝ, s.det = 0 ∧
        ∀ i j, |s i j - (a' i j).val| ≤ 3 * (2.01 ^ (n + 1) - 1) * (u * E) by
      obtain ⟨h1, s, h2, h3⟩ := key
      refine ⟨h1, laswp p s, ?_, fun i j => ?_⟩
      · rw [laswp_det]; split <;> simp [h2]
      · have := h3 (Equiv.swap 0 p i) j
        simpa [ha', laswp] using this
    rw [pow_step]
    rw [hg] at hstep
    split at hstep
    · rename_i h0
      rw [Rd.eq_iff, lit0 h] at h0
      refine ⟨Except.error.inj hstep, Matrix.of fun i j => (a' i j).val, Matrix.det_eq_zero_of_column_eq_zero 0 fun i => ?_, fun i j => ?_⟩
      · have := hpiv i
        rw [h0, abs_zero] at this
        exact abs_nonpos_iff.mp this
      · rw [Matrix.of_apply, sub_self, abs_zero]
        exact mul_nonneg (by linarith) hW
    · rename_i h0
      rw [Rd.eq_iff, lit0 h] at h0
      set l := multipliers a' with hl
      have hl1 : ∀ i, |(l i).val| ≤ 1.0021 := fun i => (scal_rd h hu _ _ h0 (hpiv i.succ)).2
      have hl2 : ∀ i, |(a' i.succ 0).val - (l i).val * (a' 0 0).val| ≤ 2.001 * u * |(a' i.succ 0).val| := fun i => (scal_rd h hu _ _ h0 (hpiv i.succ)).1
      cases hs : gesv (reduce l (cols a')) (reduce l b') with
      | ok x => rw [hs] at hstep; cases hstep
      | error e' =>
        rw [hs] at hstep
        have hee : e = e' := Except.error.inj hstep
        obtain ⟨h1, s, h2, h3⟩ := ih (reduce l (cols a')) (reduce l b') (2.01 * E) e'
          (fun i j => (reduce_rd h hu (hl1 i) (hA 0 j.succ) (hA i.succ j.succ)).1) hs
        refine ⟨hee.trans h1, Matrix.of (Fin.cons (fun j => (a' 0 j).val) fun i =>
          (Fin.cons ((l i).val * (a' 0 0).val) fun j => s i j + (l i).val * (a' 0 j.succ).val)), ?_, ?_⟩
        · rw [det_step _ (fun i => (l i).val) (fun i => by simp)]
          have : (reduce (fun i => (l i).val) (cols (Matrix.of (Fin.cons (fun j => (a' 0 j).val) fun i =>
              (Fin.cons ((l i).val * (a' 0 0).val) fun j => s i j + (l i).val * (a' 0 j.succ).val)) : Mat (n + 1) (n + 1) ℝ)) : Matrix (Fin n) (Fin n) ℝ) = s := by
            ext i j
            simp [reduce, cols]
          rw [this, h2, mul_zero]
        · intro i j
          refine Fin.cases ?_ (fun i => ?_) i
          · simp only [Matrix.of_apply, Fin.cons_zero, sub_self, abs_zero]
            exact mul_nonneg (by linarith) hW
          · simp only [Matrix.of_apply, Fin.cons_succ]
            refine Fin.cases ?_ (fun j => ?_) j
            · rw [Fin.cons_zero, abs_sub_comm]
              refine (hl2 i).trans ?_
              have := mul_le_mul_of_nonneg_left (hA i.succ 0) (by linarith : 0 ≤ 2.001 * u)
              have j1 : 2.001 * u * E = 2.001 * (u * E) := by ring
              rw [j1] at this
              have c1 := mul_le_mul_of_nonneg_right (by linarith : (2.001 : ℝ) ≤ 3 * (2.01 * 2.01 ^ n - 1)) hW
              linarith
            · rw [Fin.cons_succ]
              have r := (reduce_rd h hu (hl1 i) (hA 0 j.succ) (hA i.succ j.succ)).2
              have I := h3 i j
              have e1 : s i j + (l i).val * (a' 0 j.succ).val - (a' i.succ j.succ).val = (s i j - (reduce l (cols a') i j).val) -
                  ((a' i.succ j.succ).val - (l i).val * (a' 0 j.succ).val - (a' i.succ j.succ - l i * a' 0 j.succ).val) := by
                have : reduce l (cols a') i j = a' i.succ j.succ - l i * a' 0 j.succ := rfl
                rw [this]; ring
              rw [e1]
              refine (abs_sub _ _).trans ?_
              have j1 : 3 * (2.01 ^ n - 1) * (u * (2.01 * E)) = 3 * (2.01 * 2.01 ^ n - 2.01) * (u * E) := by ring
              have j2 : 3.01 * u * E = 3.01 * (u * E) := by ring
              rw [j1] at I
              rw [j2] at r
              have c1 := mul_le_mul_of_nonneg_right (by linarith : 3 * (2.01 * (2.01 : ℝ) ^ n - 2.01) + 3.01 ≤ 3 * (2.01 * 2.01 ^ n - 1)) hW
              rw [add_mul] at c1
              linarith

end LA
open LA

/-- **C151.** In rounded arithmetic: putting the solution into the equations misses the right hand side by at most a multiple of the rounding unit,
for matrices of any size. -/
theorem C151_residual {rnd : ℝ → ℝ} {u : ℝ} (h : Rounding rnd u) (hu : u ≤ 1 / 1000) {n k : ℕ} (hn : (n : ℝ) * u ≤ 1 / 100)
    (a : Mat n n (Rd rnd)) (b x : Mat n k (Rd rnd)) {E R X : ℝ} (ha : ∀ i j, |(a i j).val| ≤ E) (hb : ∀ i j, |(b i j).val| ≤ R)
    (hx : ∀ i j, |(x i j).val| ≤ X) (e : gesv a b = .ok x) (i : Fin n) (j : Fin k) :
    |∑ m, (a i m).val * (x m j).val - (b i j).val| ≤ 2.01 ^ n * u * (18 * E * X + 3 * R) := by
  have k1 := gesv_residual h hu n a b x E R hn ha hb hx e i j
  have hE : 0 ≤ E := le_trans (abs_nonneg _) (ha i i)
  have hX : 0 ≤ X := le_trans (abs_nonneg _) (hx i j)
  have hR : 0 ≤ R := le_trans (abs_nonneg _) (hb i j)
  have w1 : 0 ≤ (2 * (n : ℝ) ^ 2 + 11 * n + 18) * (u * (E * X)) :=
    mul_nonneg (by positivity) (mul_nonneg h.nonneg (mul_nonneg hE hX))
  have w2 : 0 ≤ 3 * (u * R) := mul_nonneg (by norm_num) (mul_nonneg h.nonneg hR)
  have j1 : (18 * 2.01 ^ n - (2 * (n : ℝ) ^ 2 + 11 * n + 18)) * (u * (E * X)) + 3 * (2.01 ^ n - 1) * (u * R) =
      2.01 ^ n * u * (18 * E * X + 3 * R) - (2 * (n : ℝ) ^ 2 + 11 * n + 18) * (u * (E * X)) - 3 * (u * R) := by ring
  rw [j1] at k1
  linarith

/-- **C151.** In rounded arithmetic: a matrix times what `np.linalg.inv` returns is the identity up to rounding. -/
theorem C151_inv_residual {rnd : ℝ → ℝ} {u : ℝ} (h : Rounding rnd u) (hu : u ≤ 1 / 1000) {n : ℕ} (hn : (n : ℝ) * u ≤ 1 / 100)
    (a x : Mat n n (Rd rnd)) {E X : ℝ} (ha : ∀ i j, |(a i j).val| ≤ E) (hx : ∀ i j, |(x i j).val| ≤ X) (e : npInv n a = .ok x) (i j : Fin n) :
    |∑ m, (a i m).val * (x m j).val - (1 : Matrix (Fin n) (Fin n) ℝ) i j| ≤ 2.01 ^ n * u * (18 * E * X + 3) := by
  have one : ∀ i j, ((Mat.eye n : Mat n n (Rd rnd)) i j).val = (1 : Matrix (Fin n) (Fin n) ℝ) i j := by
    intro i j
    simp only [Mat.eye, Matrix.of_apply, Matrix.one_apply]
    split
    · rw [Rd.val_lit]; push_cast; exact LU.one h
    · exact lit0 h
  have := C151_residual h hu hn a (Mat.eye n) x (R := 1) ha (fun i j => by
    rw [one, Matrix.one_apply]; split <;> norm_num) hx e i j
  rw [one] at this
  rwa [mul_one] at this

/-- **C151.** In rounded arithmetic: LinAlgError is only raised for matrices that are within a few roundings of a singular one. -/
theorem C151_singular {rnd : ℝ → ℝ} {u : ℝ} (h : Rounding rnd u) (hu : u ≤ 1 / 1000) {n k : ℕ} (a : Mat n n (Rd rnd)) (b : Mat n k (Rd rnd))
    {E : ℝ} (ha : ∀ i j, |(a i j).val| ≤ E) {e : PyErr} (he : gesv a b = .error e) :
    e = .LinAlgError ∧ ∃ s : Matrix (Fin n) (Fin n) ℝ, s.det = 0 ∧ ∀ i j, |s i j - (a i j).val| ≤ 3 * 2.01 ^ n * u * E := by
  obtain ⟨h1, s, h2, h3⟩ := gesv_singular h hu n a b E e ha he
  refine ⟨h1, s, h2, fun i j => (h3 i j).trans ?_⟩
  have hW : 0 ≤ u * E := mul_nonneg h.nonneg (le_trans (abs_nonneg _) (ha i j))
  have j1 : 3 * ((2.01 : ℝ) ^ n - 1) * (u * E) = 3 * 2.01 ^ n * u * E - 3 * (u * E) := by ring
  rw [j1]
  linarith

/-- **C151.** In rounded arithmetic: a solution is returned for every matrix that is not within a few roundings of a singular one. -/
theorem C151_succeeds {rnd : ℝ → ℝ} {u : ℝ} (h : Rounding rnd u) (hu : u ≤ 1 / 1000) {n k : ℕ} (a : Mat n n (Rd rnd)) (b : Mat n k (Rd rnd))
    {E : ℝ} (ha : ∀ i j, |(a i j).val| ≤ E)
    (hs : ∀ s : Matrix (Fin n) (Fin n) ℝ, (∀ i j, |s i j - (a i j).val| ≤ 3 * 2.01 ^ n * u * E) → s.det ≠ 0) : ∃ x, gesv a b = .ok x := by
  cases hg : gesv a b with
  | ok x => exact ⟨x, rfl⟩
  | error e =>
    obtain ⟨-, s, h1, h2⟩ := C151_singular h hu a b ha hg
    exact absurd h1 (hs s h2)

/-- The equations `2 y = 4`, `x + y = 3` in rounded arithmetic are solved, and rows are exchanged for it; the equations of two parallel lines are
not. -/
theorem C151_rounded_witness :
    (∃ x, gesv (!![⟨0⟩, ⟨2⟩; ⟨1⟩, ⟨1⟩] : Mat 2 2 (Rd rnd53)) (!![⟨4⟩; ⟨3⟩] : Mat 2 1 (Rd rnd53)) = .ok x ∧ ∃ X : ℝ, (∀ i j, |(x i j).val| ≤ X) ∧
      |0 * (x 0 0).val + 2 * (x 1 0).val - 4| ≤ 2.01 ^ 2 * (1 / 2 ^ 53) * (18 * 2 * X + 3 * 4)) ∧
    ∃ b, gesv (!![⟨-8⟩, ⟨3⟩; ⟨-8⟩, ⟨3⟩] : Mat 2 2 (Rd rnd53)) (b : Mat 2 1 (Rd rnd53)) = .error .LinAlgError := by
  have hu : (1 : ℝ) / 2 ^ 53 ≤ 1 / 1000 := by norm_num
  constructor
  · have ha : ∀ i j, |((!![⟨0⟩, ⟨2⟩; ⟨1⟩, ⟨1⟩] : Mat 2 2 (Rd rnd53)) i j).val| ≤ 2 := by
      intro i j; fin_cases i <;> fin_cases j <;> simp
    have hb : ∀ i j, |((!![⟨4⟩; ⟨3⟩] : Mat 2 1 (Rd rnd53)) i j).val| ≤ 4 := by
      intro i j; fin_cases j; fin_cases i <;> simp <;> norm_num
    obtain ⟨x, hx⟩ := C151_succeeds rounding_rnd53 hu (!![⟨0⟩, ⟨2⟩; ⟨1⟩, ⟨1⟩] : Mat 2 2 (Rd rnd53)) (!![⟨4⟩; ⟨3⟩] : Mat 2 1 (Rd rnd53)) ha (by
      intro s hs
      have hs' : ∀ i j, |s i j - ((!![⟨0⟩, ⟨2⟩; ⟨1⟩, ⟨1⟩] : Mat 2 2 (Rd rnd53)) i j).val| ≤ 1 / 100 := fun i j => (hs i j).trans (by norm_num)
      have h00 : |s 0 0 - 0| ≤ 1 / 100 := hs' 0 0
      have h01 : |s 0 1 - 2| ≤ 1 / 100 := hs' 0 1
      have h10 : |s 1 0 - 1| ≤ 1 / 100 := hs' 1 0
      have h11 : |s 1 1 - 1| ≤ 1 / 100 := hs' 1 1
      rw [abs_le] at h00 h01 h10 h11
      rw [Matrix.det_fin_two]
      have : s 0 0 * s 1 1 < s 0 1 * s 1 0 := by nlinarith
      linarith)
    have hX : ∀ i j, |(x i j).val| ≤ |(x 0 0).val| + |(x 1 0).val| := by
      intro i j
      obtain rfl : j = 0 := Subsingleton.elim _ _
      fin_cases i
      · exact le_add_of_nonneg_right (abs_nonneg _)
      · exact le_add_of_nonneg_left (abs_nonneg _)
    refine ⟨x, hx, _, hX, ?_⟩
    have := C151_residual rounding_rnd53 hu (by norm_num) _ _ x ha hb hX hx 0 0
    rw [Fin.sum_univ_two] at this
    exact this
  · have irr : ∀ x : Rd rnd53, Num.lt x x = false := fun x => by
      rw [← Bool.not_eq_true, Rd.lt_iff]; exact lt_irrefl _
    have e := C150_witness.2.2.1
    unfold lineSolve at e
    dsimp only at e
    have int : ∀ i : ℤ, |i| ≤ 2 ^ 25 → rnd53 i = i := fun i hi => by simpa using rounding_rnd53.grid i 0 (by linarith)
    have i8 : rnd53 (((8 : ℤ) : ℝ) - ((0 : ℤ) : ℝ)) = 8 := by have := int 8 (by norm_num); push_cast at this ⊢; rwa [sub_zero]
    have i3 : rnd53 (((3 : ℤ) : ℝ) - ((0 : ℤ) : ℝ)) = 3 := by have := int 3 (by norm_num); push_cast at this ⊢; rwa [sub_zero]
    have i3' : rnd53 (((4 : ℤ) : ℝ) - ((1 : ℤ) : ℝ)) = 3 := by
      have := int 3 (by norm_num); push_cast at this ⊢; rwa [show (4 : ℝ) - 1 = 3 by norm_num]
    have m1 : -((LU.at2 3 8).2 - (LU.at2 0 0).2) = (⟨-8⟩ : Rd rnd53) := congrArg (fun x => (⟨-x⟩ : Rd rnd53)) i8
    have m2 : (LU.at2 3 8).1 - (LU.at2 0 0).1 = (⟨3⟩ : Rd rnd53) := congrArg (fun x => (⟨x⟩ : Rd rnd53)) i3
    have m3 : -((LU.at2 4 8).2 - (LU.at2 1 0).2) = (⟨-8⟩ : Rd rnd53) := congrArg (fun x => (⟨-x⟩ : Rd rnd53)) i8
    have m4 : (LU.at2 4 8).1 - (LU.at2 1 0).1 = (⟨3⟩ : Rd rnd53) := congrArg (fun x => (⟨x⟩ : Rd rnd53)) i3'
    rw [m1, m2, m3, m4] at e
    refine ⟨!![_; _], (C151_two irr _ _ _ _ _ _).trans (congrArg (Except.map _) e)⟩

end Blmath.Props
