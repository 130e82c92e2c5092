import Verif.Props.GramSchmidt
import Verif.Props.FloatNormals
import Verif.Proofs.RoundEval
import Verif.Proofs.Appr

/-!
Property C113: Gram-Schmidt in rounded arithmetic.
-/

namespace Blmath.Props
open Blmath Blmath.Linalg Blmath.Spec Blmath.Proofs
open scoped Matrix
variable {rnd : ℝ → ℝ} {u : ℝ} {n : ℕ}

namespace GS

/-- the numbers stored in a row -/
def vals (w : Fin n → Rd rnd) : Fin n → ℝ := fun i => (w i).val

theorem sumFin_appr (h : Rounding rnd u) : ∀ {n : ℕ} (k : ℕ) (f : Fin n → Rd rnd) (X M : Fin n → ℝ),
    (∀ i, Appr u k (X i) (M i) (f i).val) → Appr u (k + n) (∑ i, X i) (∑ i, M i) (sumFin f).val := by
  intro n
  induction n with
  | zero => intro k f X M _; simpa [sumFin, h.zero] using Appr.zero
  | succ n ih =>
    intro k f X M hf
    have h1 := ih k (fun i => f i.succ) (fun i => X i.succ) (fun i => M i.succ) fun i => hf i.succ
    rw [Fin.sum_univ_succ, Fin.sum_univ_succ]
    exact (((hf 0).mono h.nonneg h.lt_one (by omega)).add h1).round h

/-- the sum of the sizes of products is at most the product of the lengths -/
theorem abs_sum_le (a b : Fin n → ℝ) : ∑ i, |a i * b i| ≤ vnorm a * vnorm b := by
  unfold vnorm
  rw [← Real.sqrt_mul (by rw [dotProduct]; exact Finset.sum_nonneg fun i _ => mul_self_nonneg _)]
  apply Real.le_sqrt_of_sq_le
  have := Finset.sum_mul_sq_le_sq_mul_sq Finset.univ (fun i => |a i|) (fun i => |b i|)
  simp only [sq_abs] at this
  simp only [dotProduct, abs_mul, ← pow_two]
  exact this

theorem abs_dot_le (a b : Fin n → ℝ) : |a ⬝ᵥ b| ≤ vnorm a * vnorm b :=
  (Finset.abs_sum_le_sum_abs _ _).trans (abs_sum_le a b)

theorem vnorm_sq (a : Fin n → ℝ) : vnorm a * vnorm a = a ⬝ᵥ a :=
  Real.mul_self_sqrt (by rw [dotProduct]; exact Finset.sum_nonneg fun i _ => mul_self_nonneg _)

theorem vnorm_nonneg (a : Fin n → ℝ) : 0 ≤ vnorm a := Real.sqrt_nonneg _

theorem dotRow_appr (h : Rounding rnd u) (a b : Fin n → Rd rnd) :
    Appr u (n + 1) (vals a ⬝ᵥ vals b) (vnorm (vals a) * vnorm (vals b)) (dotRow a b).val := by
  rw [add_comm]
  refine (sumFin_appr h 1 (fun i => a i * b i) (fun i => vals a i * vals b i) (fun i => |vals a i * vals b i|) fun i => ?_).size
    (abs_sum_le _ _)
  exact (Appr.exact (k := 0) h (vals a i * vals b i)).round h

theorem sumFin_near (h : Rounding rnd u) : ∀ {n : ℕ} (k : ℕ) (f : Fin n → Rd rnd) (X : Fin n → ℝ), (∀ i, 0 ≤ X i) →
    (∀ i, ∃ t, Near u k t ∧ (f i).val = X i * t) → ∃ t, Near u (k + n) t ∧ (sumFin f).val = (∑ i, X i) * t := by
  intro n
  induction n with
  | zero => intro k f X _ _; exact ⟨1, Near.one.mono h.nonneg h.lt_one (Nat.zero_le _), by simp [sumFin, h.zero]⟩
  | succ n ih =>
    intro k f X hX hf
    obtain ⟨t, ht, e⟩ := ih k (fun i => f i.succ) (fun i => X i.succ) (fun i => hX _) fun i => hf i.succ
    obtain ⟨s, hs, es⟩ := hf 0
    obtain ⟨r, hr, er⟩ := Near.add (hX 0) (Finset.sum_nonneg fun (i : Fin n) _ => hX i.succ)
      (hs.mono h.nonneg h.lt_one (Nat.le_add_right k n)) ht
    obtain ⟨d, hd, ed⟩ := h.factor ((f 0).val + (sumFin fun i => f i.succ).val)
    refine ⟨r * d, by rw [← add_assoc]; exact hr.mul h.lt_one hd, ?_⟩
    have h1 : (sumFin f).val = rnd ((f 0).val + (sumFin fun i => f i.succ).val) := rfl
    rw [h1, ed, e, es, er, Fin.sum_univ_succ, mul_assoc]

/-- with nonnegative terms the factors combine to one -/
theorem dotSelf_rd (h : Rounding rnd u) (a : Fin n → Rd rnd) : ∃ t, Near u (n + 1) t ∧ (dotRow a a).val = vals a ⬝ᵥ vals a * t := by
  rw [add_comm]
  refine sumFin_near h 1 (fun i => a i * a i) (fun i => vals a i * vals a i) (fun i => mul_self_nonneg _) fun i => ?_
  exact h.factor _

/-- the projection of `b` on the row `a`, entry `i` -/
noncomputable def projOn (a b : Fin n → ℝ) (i : Fin n) : ℝ := (a ⬝ᵥ b) / (a ⬝ᵥ a) * a i

theorem dot_pos {a : Fin n → ℝ} (ha : a ≠ 0) : 0 < a ⬝ᵥ a := by
  have := vnorm_pos a ha
  rw [← vnorm_sq]; positivity

theorem proj_appr (h : Rounding rnd u) (a b : Fin n → Rd rnd) (ha : vals a ≠ 0) (i : Fin n) :
    Appr u (2 * n + 4) (projOn (vals a) (vals b) i) (vnorm (vals b) * |vals a i| / vnorm (vals a)) (Linalg.proj a b i).val := by
  obtain ⟨t, ht, et⟩ := dotSelf_rd h a
  have hp := dot_pos ha
  have hn := vnorm_pos _ ha
  have h1 := (((dotRow_appr h a b).scale (1 / (vals a ⬝ᵥ vals a))).factor h.lt_one (ht.inv h.lt_one)).round h
  have h2 := (h1.scale (vals a i)).round h
  have e : (Linalg.proj a b i).val = rnd (vals a i * rnd (1 / (vals a ⬝ᵥ vals a) * (dotRow a b).val * t⁻¹)) := by
    show rnd (rnd ((dotRow a b).val / (dotRow a a).val) * (a i).val) = _
    rw [et, mul_comm]
    congr 3
    field_simp
  rw [e]
  have h3 := h2.mono h.nonneg h.lt_one (show n + 1 + (n + 1) + 1 + 1 ≤ 2 * n + 4 by omega)
  refine Appr.size ?_ ?_ (m := |vals a i| * (|1 / (vals a ⬝ᵥ vals a)| * (vnorm (vals a) * vnorm (vals b))))
  · rw [abs_of_pos (one_div_pos.mpr hp), ← vnorm_sq]
    refine le_of_eq ?_
    field_simp
  · have e2 : projOn (vals a) (vals b) i = vals a i * (1 / (vals a ⬝ᵥ vals a) * (vals a ⬝ᵥ vals b)) := by
      unfold projOn; ring
    rw [e2]; exact h3

theorem sumRows_appr (h : Rounding rnd u) (b : Fin n → Rd rnd) (i : Fin n) (X M : (Fin n → Rd rnd) → ℝ)
    (f : (Fin n → Rd rnd) → Fin n → Rd rnd) : ∀ (o : List (Fin n → Rd rnd)) (k : ℕ) (s : Fin n → Rd rnd) (x m : ℝ),
    Appr u k x m (s i).val → (∀ a ∈ o, Appr u k (X a) (M a) (f a i).val) →
    Appr u (k + o.length) (x + (o.map X).sum) (m + (o.map M).sum)
      (((o.map f).foldl (fun s r i => s i + r i) s) i).val := by
  intro o
  induction o with
  | nil => intro k s x m hs _; simpa using hs
  | cons a o ih =>
    intro k s x m hs ho
    have h1 := (hs.add (ho a List.mem_cons_self)).round h
    have h2 := ih (k + 1) (fun i => s i + f a i) _ _ h1 fun a' ha' =>
      (ho a' (List.mem_cons_of_mem _ ha')).mono h.nonneg h.lt_one (by omega)
    simp only [List.map_cons, List.sum_cons, List.foldl_cons, List.length_cons]
    rw [show k + (o.length + 1) = k + 1 + o.length by omega, ← add_assoc x, ← add_assoc m]
    exact h2

/-- what is left of `vec` after the projections on the rows `o` -/
def stepRow {α : Type} [Num α] (o : List (Fin n → α)) (vec : Fin n → α) : Fin n → α :=
  fun i => vec i - pySumRows (o.map fun a => Linalg.proj a vec) i

theorem step_appr (h : Rounding rnd u) (o : List (Fin n → Rd rnd)) (b : Fin n → Rd rnd) (ho : ∀ a ∈ o, vals a ≠ 0) (i : Fin n) :
    Appr u (2 * n + 5 + o.length) (vals b i - (o.map fun a => projOn (vals a) (vals b) i).sum)
      (|vals b i| + (o.map fun a => vnorm (vals b) * |vals a i| / vnorm (vals a)).sum) (stepRow o b i).val := by
  have h1 := sumRows_appr h b i (fun a => projOn (vals a) (vals b) i) (fun a => vnorm (vals b) * |vals a i| / vnorm (vals a))
    (fun a => Linalg.proj a b) o (2 * n + 4) (fun _ => Num.lit 0) 0 0 (by simpa [h.zero] using Appr.zero)
    fun a ha => proj_appr h a b (ho a ha) i
  simp only [zero_add] at h1
  have h2 := ((Appr.exact (k := 2 * n + 4 + o.length) h (vals b i)).sub h1).round h
  rw [show 2 * n + 5 + o.length = 2 * n + 4 + o.length + 1 by omega]
  exact h2

theorem go_rows {α : Type} [Num α] : ∀ (rest o R : List (Fin n → α)), R = orthogonalizeFrom o rest →
    R.length = o.length + rest.length ∧ R.take o.length = o ∧
      ∀ k (hk : k < rest.length) (hk' : o.length + k < R.length), R[o.length + k] = stepRow (R.take (o.length + k)) rest[k] := by
  intro rest
  induction rest with
  | nil => intro o R e; subst e; exact ⟨by simp [orthogonalizeFrom], by simp [orthogonalizeFrom], fun k hk => by simp at hk⟩
  | cons w rest ih =>
    intro o R e
    obtain ⟨h1, h2, h3⟩ := ih (o ++ [stepRow o w]) R e
    simp only [List.length_append, List.length_singleton] at h1 h2 h3
    have h4 : R.take o.length = o := by
      have := congrArg (List.take o.length) h2
      rwa [List.take_take, min_eq_left (by omega), List.take_left' rfl] at this
    refine ⟨by simp [h1]; omega, h4, ?_⟩
    intro k hk hk'
    rcases k with _ | k
    · have : R[o.length]? = some (stepRow o w) := by
        have := congrArg (fun l => l[o.length]?) h2
        simpa [List.getElem?_take] using this
      have h5 : R[o.length] = stepRow o w := by
        rw [List.getElem?_eq_getElem (by omega)] at this
        exact Option.some.inj this
      simp only [Nat.add_zero, List.getElem_cons_zero, h4, h5]
    · have := h3 k (by simpa using hk) (by omega)
      simp only [List.getElem_cons_succ, show o.length + (k + 1) = o.length + 1 + k by omega]
      exact this

theorem rows_eq {α : Type} [Num α] (v : List (Fin n → α)) : (orthogonalize v).length = v.length ∧
    ∀ k (hk : k < v.length) (hk' : k < (orthogonalize v).length),
      (orthogonalize v)[k] = stepRow ((orthogonalize v).take k) v[k] := by
  obtain ⟨h1, -, h3⟩ := go_rows v [] _ rfl
  refine ⟨by simpa [orthogonalize] using h1, fun k hk hk' => ?_⟩
  have := h3 k hk (by simpa [orthogonalize] using hk')
  simpa [orthogonalize] using this

theorem stepRow_nil (h : Rounding rnd u) (w : Fin n → Rd rnd) (hw : ∀ i, rnd (w i).val = (w i).val) : stepRow [] w = w := by
  funext i
  apply Rd.ext
  show rnd ((w i).val - rnd ((0 : ℚ) : ℝ)) = _
  rw [Rat.cast_zero, h.zero, sub_zero, hw]

theorem dot_sum (a : Fin n → ℝ) (f : (Fin n → Rd rnd) → Fin n → ℝ) (o : List (Fin n → Rd rnd)) :
    ∑ i, a i * (o.map fun w => f w i).sum = (o.map fun w => a ⬝ᵥ f w).sum := by
  induction o with
  | nil => simp
  | cons w o ih => simp only [List.map_cons, List.sum_cons, mul_add, Finset.sum_add_distrib, ih]; rfl

theorem list_abs_le {β : Type*} (f : β → ℝ) (c : ℝ) : ∀ l : List β, (∀ x ∈ l, |f x| ≤ c) → |(l.map f).sum| ≤ l.length * c
  | [], _ => by simp
  | x :: l, h => by
    have h1 := list_abs_le f c l fun y hy => h y (List.mem_cons_of_mem _ hy)
    have h2 := h x List.mem_cons_self
    simp only [List.map_cons, List.sum_cons, List.length_cons]
    push_cast
    exact (abs_add_le _ _).trans (by linarith)

theorem dot_projOn (a c b : Fin n → ℝ) : a ⬝ᵥ projOn c b = (c ⬝ᵥ b) / (c ⬝ᵥ c) * (a ⬝ᵥ c) := by
  have : projOn c b = ((c ⬝ᵥ b) / (c ⬝ᵥ c)) • c := rfl
  rw [this, dotProduct_smul, smul_eq_mul]

theorem dot_projOn_le {a c b : Fin n → ℝ} {e : ℝ} (hc : c ≠ 0) (h : |a ⬝ᵥ c| ≤ e * (vnorm a * vnorm c)) :
    |a ⬝ᵥ projOn c b| ≤ e * (vnorm a * vnorm b) := by
  have hn := vnorm_pos c hc
  have h1 := abs_dot_le c b
  rw [dot_projOn, abs_mul, abs_div, abs_of_pos (dot_pos hc), ← vnorm_sq]
  calc |c ⬝ᵥ b| / (vnorm c * vnorm c) * |a ⬝ᵥ c|
      ≤ (vnorm c * vnorm b) / (vnorm c * vnorm c) * (e * (vnorm a * vnorm c)) := by
        refine mul_le_mul ?_ h (abs_nonneg _) ?_
        · exact div_le_div_of_nonneg_right h1 (by positivity)
        · have := vnorm_nonneg b
          positivity
    _ = e * (vnorm a * vnorm b) := by field_simp

theorem err_dot (o : List (Fin n → Rd rnd)) (a b d : Fin n → ℝ) (g : ℝ) (hg : 0 ≤ g) (ho : ∀ c ∈ o, vals c ≠ 0)
    (hd : ∀ i, |d i| ≤ g * (|b i| + (o.map fun c => vnorm b * |vals c i| / vnorm (vals c)).sum)) :
    |a ⬝ᵥ d| ≤ (o.length + 1) * g * (vnorm a * vnorm b) := by
  have h1 : |a ⬝ᵥ d| ≤ ∑ i, |a i| * (g * (|b i| + (o.map fun c => vnorm b * |vals c i| / vnorm (vals c)).sum)) := by
    refine (Finset.abs_sum_le_sum_abs _ _).trans (Finset.sum_le_sum fun i _ => ?_)
    rw [abs_mul]
    exact mul_le_mul_of_nonneg_left (hd i) (abs_nonneg _)
  refine h1.trans ?_
  have e : ∑ i, |a i| * (g * (|b i| + (o.map fun c => vnorm b * |vals c i| / vnorm (vals c)).sum)) =
      g * (∑ i, |a i * b i| + ∑ i, |a i| * (o.map fun c => vnorm b * |vals c i| / vnorm (vals c)).sum) := by
    rw [← Finset.sum_add_distrib, Finset.mul_sum]
    exact Finset.sum_congr rfl fun i _ => by rw [abs_mul]; ring
  rw [e, dot_sum (fun i => |a i|) (fun c i => vnorm b * |vals c i| / vnorm (vals c)) o]
  have h2 : |(o.map fun c => (fun i => |a i|) ⬝ᵥ fun i => vnorm b * |vals c i| / vnorm (vals c)).sum| ≤ o.length * (vnorm a * vnorm b) := by
    refine list_abs_le _ _ o fun c hc => ?_
    have hn := vnorm_pos _ (ho c hc)
    have h3 := abs_sum_le a (vals c)
    have e2 : ((fun i => |a i|) ⬝ᵥ fun i => vnorm b * |vals c i| / vnorm (vals c)) = vnorm b / vnorm (vals c) * ∑ i, |a i * vals c i| := by
      rw [dotProduct, Finset.mul_sum]
      exact Finset.sum_congr rfl fun i _ => by rw [abs_mul]; ring
    have hb := vnorm_nonneg b
    rw [e2, abs_of_nonneg (mul_nonneg (by positivity) (Finset.sum_nonneg fun i _ => abs_nonneg _))]
    calc _ ≤ vnorm b / vnorm (vals c) * (vnorm a * vnorm (vals c)) := mul_le_mul_of_nonneg_left h3 (by positivity)
      _ = _ := by field_simp
  have h4 := abs_sum_le a b
  have h5 := (abs_le.1 h2).2
  calc _ ≤ g * (vnorm a * vnorm b + o.length * (vnorm a * vnorm b)) := mul_le_mul_of_nonneg_left (add_le_add h4 h5) hg
    _ = _ := by ring

end GS
open GS

/-- **C113** The result has one row per row of the argument, and every row is, up to rounding, what is left of the row of the argument
after the projections on the rows computed before it. -/
theorem C113_rows (h : Rounding rnd u) (v : List (Fin n → Rd rnd)) : (orthogonalize v).length = v.length ∧
    ∀ k (hk : k < v.length) (hk' : k < (orthogonalize v).length), (∀ a ∈ (orthogonalize v).take k, vals a ≠ 0) →
      ((2 * n + 5 + k : ℕ) : ℝ) * u < 1 → ∀ i,
      |vals (orthogonalize v)[k] i - (vals v[k] i - (((orthogonalize v).take k).map fun a => projOn (vals a) (vals v[k]) i).sum)| ≤
        gam u (2 * n + 5 + k) *
          (|vals v[k] i| + (((orthogonalize v).take k).map fun a => vnorm (vals v[k]) * |vals a i| / vnorm (vals a)).sum) := by
  obtain ⟨h1, h2⟩ := rows_eq v
  refine ⟨h1, fun k hk hk' ho hu i => ?_⟩
  have h3 := step_appr h ((orthogonalize v).take k) v[k] ho i
  rw [List.length_take, min_eq_left hk'.le] at h3
  have h4 := h3.bound h.nonneg h.lt_one hu
  rw [h2 k hk hk']
  exact h4

/-- **C113** The first row is returned as it is. -/
theorem C113_first (h : Rounding rnd u) (w : Fin n → Rd rnd) (v : List (Fin n → Rd rnd))
    (hw : ∀ i, rnd (w i).val = (w i).val) : (orthogonalize (w :: v)).head? = some w := by
  obtain ⟨h1, h2⟩ := rows_eq (w :: v)
  have h3 := h2 0 (by simp) (by simp [h1])
  rw [List.head?_eq_getElem?, List.getElem?_eq_getElem (by simp [h1]), h3]
  simp [stepRow_nil h w hw]

/-- **C113** How orthogonal the rows are: if the rows computed before row `k` are orthogonal up to `e` (the cosines of their angles are
at most `e`), the inner product of row `k` with each of them is at most `(k - 1) e + (k + 1) γ` times their lengths, taken before
the projections are removed. -/
theorem C113_inner (h : Rounding rnd u) (v : List (Fin n → Rd rnd)) (e : ℝ) (k : ℕ) (hk : k < v.length)
    (hk' : k < (orthogonalize v).length) (hne : ∀ a ∈ (orthogonalize v).take k, vals a ≠ 0)
    (he : ((orthogonalize v).take k).Pairwise fun a b => |vals a ⬝ᵥ vals b| ≤ e * (vnorm (vals a) * vnorm (vals b)))
    (hu : ((2 * n + 5 + k : ℕ) : ℝ) * u < 1) :
    ∀ a ∈ (orthogonalize v).take k, |vals a ⬝ᵥ vals (orthogonalize v)[k]| ≤
      ((k - 1) * e + (k + 1) * gam u (2 * n + 5 + k)) * (vnorm (vals a) * vnorm (vals v[k])) := by
  intro a ha
  have hr := (C113_rows h v).2 k hk hk' hne hu
  have hl : ((orthogonalize v).take k).length = k := by simp [hk'.le]
  generalize vals (orthogonalize v)[k] = w at hr ⊢
  generalize (orthogonalize v).take k = o at *
  generalize vals v[k] = b at *
  have h1 := err_dot o (vals a) b _ _ (gam_nonneg h.nonneg hu) hne hr
  have e1 : (vals a ⬝ᵥ fun i => w i - (b i - (o.map fun c => projOn (vals c) b i).sum)) =
      vals a ⬝ᵥ w - (vals a ⬝ᵥ b - (o.map fun c => vals a ⬝ᵥ projOn (vals c) b).sum) := by
    rw [← dot_sum]
    simp only [dotProduct, mul_sub, Finset.sum_sub_distrib]
  rw [e1, hl] at h1
  obtain ⟨l1, l2, rfl⟩ := List.append_of_mem ha
  rw [List.pairwise_append] at he
  obtain ⟨-, he2, he3⟩ := he
  rw [List.pairwise_cons] at he2
  have hself : vals a ⬝ᵥ projOn (vals a) b = vals a ⬝ᵥ b := by
    have := dot_pos (hne a ha)
    rw [dot_projOn]; field_simp
  have h2 : |((l1 ++ l2).map fun c => vals a ⬝ᵥ projOn (vals c) b).sum| ≤ (l1 ++ l2).length * (e * (vnorm (vals a) * vnorm b)) := by
    refine list_abs_le _ _ _ fun c hc => ?_
    refine dot_projOn_le (hne c ?_) ?_
    · rcases List.mem_append.1 hc with hc | hc
      · exact List.mem_append_left _ hc
      · exact List.mem_append_right _ (List.mem_cons_of_mem _ hc)
    · rcases List.mem_append.1 hc with hc | hc
      · have := he3 c hc a List.mem_cons_self
        rw [dotProduct_comm, mul_comm (vnorm (vals a))]; exact this
      · exact he2.1 c hc
  have hl' : (((l1 ++ l2).length : ℕ) : ℝ) = k - 1 := by
    have : (l1 ++ l2).length + 1 = k := by rw [← hl]; simp; omega
    rw [← this]; push_cast; ring
  rw [hl', List.map_append, List.sum_append] at h2
  rw [List.map_append, List.sum_append, List.map_cons, List.sum_cons, hself] at h1
  rw [abs_le] at h1 h2 ⊢
  constructor <;> nlinarith [h1.1, h1.2, h2.1, h2.2]

/-- **C113** Two rows: the inner product of the second row of the result with the first is bounded by roundings times the lengths of
the rows given. -/
theorem C113_two (h : Rounding rnd u) (a b : Fin n → Rd rnd) (ha : ∀ i, rnd (a i).val = (a i).val) (hne : vals a ≠ 0)
    (hu : ((2 * n + 6 : ℕ) : ℝ) * u < 1) :
    ∃ w, orthogonalize [a, b] = [a, w] ∧
      |vals a ⬝ᵥ vals w| ≤ 2 * gam u (2 * n + 6) * (vnorm (vals a) * vnorm (vals b)) := by
  have e : orthogonalize [a, b] = [stepRow [] a, stepRow [stepRow [] a] b] := rfl
  rw [stepRow_nil h a ha] at e
  refine ⟨_, e, ?_⟩
  have h1 := C113_inner h [a, b] 0 1 (by simp) (by simp [e]) (by simpa [e] using hne) (by simp [e]) (by exact_mod_cast hu) a
    (by simp [e])
  simp only [e] at h1
  simpa [show (1 : ℝ) + 1 = 2 by norm_num] using h1

namespace GS

theorem unit_fold {α : Type} [Num α] : ∀ (suf pre : List (Fin n → α)),
    ((List.range' pre.length suf.length).map fun (i : ℕ) => (i : ℤ)).foldlM unitAt (pre ++ suf) = .ok (pre ++ suf.map unitRow) := by
  intro suf
  induction suf with
  | nil => intro pre; simp
  | cons w suf ih =>
    intro pre
    have hstep : unitAt (pre ++ w :: suf) (pre.length : ℤ) = .ok ((pre ++ [unitRow w]) ++ suf) := by
      have h1 : ¬ ((pre.length : ℤ) < 0) := by omega
      have h2 : rowIndex (pre ++ w :: suf).length (pre.length : ℤ) = .ok pre.length := by
        simp [rowIndex, h1]
      simp only [unitAt, h2, ok_bind, pure_eq_ok]
      congr 1
      refine List.ext_getElem? fun k => ?_
      rw [List.getElem?_modify]
      rcases lt_trichotomy k pre.length with hk | hk | hk
      · simp [List.getElem?_append, hk, hk.ne']
      · subst hk; simp
      · have h3 : ¬ k < pre.length := by omega
        have h4 : pre.length ≠ k := by omega
        obtain ⟨j, rfl⟩ : ∃ j, k = pre.length + 1 + j := ⟨k - pre.length - 1, by omega⟩
        have h5 : pre.length + 1 + j - pre.length = j + 1 := by omega
        simp [List.getElem?_append, h3, h4, h5]
    rw [List.length_cons, List.range'_succ, List.map_cons, List.foldlM_cons, hstep, ok_bind]
    have := ih (pre ++ [unitRow w])
    simp only [List.length_append, List.length_singleton] at this
    rw [this]
    simp

theorem orthonormalize_all {α : Type} [Num α] (v : List (Fin n → α)) :
    orthonormalize v none = .ok ((orthogonalize v).map unitRow) := by
  have := unit_fold (orthogonalize v) []
  rw [(rows_eq v).1] at this
  simpa [orthonormalize, List.range_eq_range'] using this

theorem unitRow_rd (h : Rounding rnd u) (w : Fin n → Rd rnd) (hw : vals w ≠ 0) (i : Fin n) :
    ∃ t, Near u (n + 3) t ∧ (unitRow w i).val = vals w i / vnorm (vals w) * t := by
  obtain ⟨t, ht, et⟩ := dotSelf_rd h w
  have hn := vnorm_pos _ hw
  have hs := (ht.mono h.nonneg h.lt_one (show n + 1 ≤ 2 * (n + 1) by omega)).sqrt h.lt_one
  obtain ⟨d, hd, ed⟩ := h.factor (Real.sqrt (dotRow w w).val)
  obtain ⟨c, hc, ec⟩ := h.factor ((w i).val / rnd (Real.sqrt (dotRow w w).val))
  have h1 : (unitRow w i).val = rnd ((w i).val / rnd (Real.sqrt (dotRow w w).val)) := rfl
  have h2 : Real.sqrt (dotRow w w).val = vnorm (vals w) * Real.sqrt t := by
    rw [et, Real.sqrt_mul (dot_pos hw).le]; rfl
  refine ⟨(Real.sqrt t * d)⁻¹ * c, (((hs.mul h.lt_one hd).inv h.lt_one).mul h.lt_one hc :), ?_⟩
  have := hs.pos h.lt_one
  have := hd.pos h.lt_one
  rw [h1, ec, ed, h2]
  simp only [vals]
  field_simp

theorem vnorm_le_of_abs (x y : Fin n → ℝ) (c : ℝ) (hc : 0 ≤ c) (h : ∀ i, |x i| ≤ c * |y i|) : vnorm x ≤ c * vnorm y := by
  unfold vnorm
  rw [← Real.sqrt_sq hc, ← Real.sqrt_mul (sq_nonneg c)]
  apply Real.sqrt_le_sqrt
  rw [dotProduct, dotProduct, Finset.mul_sum]
  refine Finset.sum_le_sum fun i _ => ?_
  rw [← abs_mul_abs_self (x i), ← abs_mul_abs_self (y i)]
  calc |x i| * |x i| ≤ (c * |y i|) * (c * |y i|) := mul_self_le_mul_self (abs_nonneg _) (h i)
    _ = _ := by ring

end GS
open GS

/-- **C113** Without indices every row of the result is the row of `orthogonalize` divided by its length, up to rounding, entry by
entry, and its length is 1 up to rounding. -/
theorem C113_unit (h : Rounding rnd u) (v : List (Fin n → Rd rnd)) (hu : ((n + 3 : ℕ) : ℝ) * u < 1)
    (hne : ∀ w ∈ orthogonalize v, vals w ≠ 0) :
    ∃ res, orthonormalize v none = .ok res ∧ res.length = v.length ∧
      ∀ k (hk : k < res.length) (hk' : k < (orthogonalize v).length),
        (∀ i, |vals res[k] i - vals (orthogonalize v)[k] i / vnorm (vals (orthogonalize v)[k])| ≤
          gam u (n + 3) * (|vals (orthogonalize v)[k] i| / vnorm (vals (orthogonalize v)[k]))) ∧
        |vnorm (vals res[k]) - 1| ≤ gam u (n + 3) := by
  refine ⟨_, orthonormalize_all v, by simp [(rows_eq v).1], fun k hk hk' => ?_⟩
  have hw := hne _ (List.getElem_mem hk')
  rw [List.getElem_map]
  generalize (orthogonalize v)[k] = w at hw ⊢
  have hn := vnorm_pos _ hw
  have hg := gam_nonneg (k := n + 3) h.nonneg hu
  have h1 : ∀ i, |vals (unitRow w) i - vals w i / vnorm (vals w)| ≤ gam u (n + 3) * (|vals w i| / vnorm (vals w)) := by
    intro i
    obtain ⟨t, ht, e⟩ := unitRow_rd h w hw i
    have h2 := ht.gam_bound h.nonneg hu h.lt_one
    show |(unitRow w i).val - _| ≤ _
    rw [e, show vals w i / vnorm (vals w) * t - vals w i / vnorm (vals w) = (t - 1) * (vals w i / vnorm (vals w)) by ring,
      abs_mul, abs_div, abs_of_pos hn]
    exact mul_le_mul_of_nonneg_right h2 (by positivity)
  refine ⟨h1, ?_⟩
  have e1 := vnorm_unit (vals w) hw
  have e2 : ((1 / vnorm (vals w)) • vals w) = fun i => vals w i / vnorm (vals w) := by
    funext i; simp; ring
  rw [e2] at e1
  generalize hx : vals (unitRow w) = x at *
  generalize hy : (fun i => vals w i / vnorm (vals w)) = y at *
  have hxy : ∀ i, |x i - y i| ≤ gam u (n + 3) * |y i| := by
    intro i; rw [← hy]; simpa [abs_div, abs_of_pos hn] using h1 i
  have hup : vnorm x ≤ (1 + gam u (n + 3)) * vnorm y := by
    refine vnorm_le_of_abs x y _ (by linarith) fun i => ?_
    have := abs_add_le (x i - y i) (y i)
    rw [sub_add_cancel] at this
    have := hxy i
    linarith
  have hlo : 1 - gam u (n + 3) ≤ vnorm x := by
    rcases le_or_gt (1 - gam u (n + 3)) 0 with h0 | h0
    · exact h0.trans (vnorm_nonneg x)
    · have := vnorm_le_of_abs y x (1 / (1 - gam u (n + 3))) (by positivity) fun i => by
        rw [div_mul_eq_mul_div, one_mul, le_div_iff₀ h0]
        have h2 := abs_add_le (y i - x i) (x i)
        rw [sub_add_cancel, abs_sub_comm] at h2
        have := hxy i
        linarith
      rw [e1, div_mul_eq_mul_div, one_mul, le_div_iff₀ h0, one_mul] at this
      exact this
  rw [e1, mul_one] at hup
  rw [abs_le]
  constructor <;> linarith

namespace GS

theorem stepRow_fixed (h : Rounding rnd u) (o : List (Fin n → Rd rnd)) (w : Fin n → Rd rnd) (hw : ∀ i, rnd (w i).val = (w i).val)
    (ho : ∀ a ∈ o, (dotRow a w).val = 0) : stepRow o w = w := by
  have e : ∀ (o : List (Fin n → Rd rnd)), (∀ a ∈ o, (dotRow a w).val = 0) → ∀ s : Fin n → Rd rnd, (∀ i, (s i).val = 0) →
      ∀ i, (((o.map fun a => Linalg.proj a w).foldl (fun s r i => s i + r i) s) i).val = 0 := by
    intro o
    induction o with
    | nil => intro _ s hs; simpa using hs
    | cons a o ih =>
      intro ho s hs
      rw [List.map_cons, List.foldl_cons]
      refine ih (fun b hb => ho b (List.mem_cons_of_mem _ hb)) _ fun i => ?_
      show rnd ((s i).val + rnd (rnd ((dotRow a w).val / (dotRow a a).val) * (a i).val)) = 0
      rw [ho a List.mem_cons_self, hs i, zero_div, h.zero, zero_mul, h.zero, add_zero, h.zero]
  funext i
  apply Rd.ext
  show rnd ((w i).val - (pySumRows (o.map fun a => Linalg.proj a w) i).val) = _
  have := e o ho (fun _ => Num.lit 0) (fun i => by simp [h.zero]) i
  unfold pySumRows
  rw [this, sub_zero, hw]

theorem go_fixed (h : Rounding rnd u) : ∀ (rest o : List (Fin n → Rd rnd)), (∀ w ∈ rest, ∀ i, rnd (w i).val = (w i).val) →
    (o ++ rest).Pairwise (fun a b => (dotRow a b).val = 0) → orthogonalizeFrom o rest = o ++ rest := by
  intro rest
  induction rest with
  | nil => intro o _ _; simp [orthogonalizeFrom]
  | cons w rest ih =>
    intro o hw hp
    have e : orthogonalizeFrom o (w :: rest) = orthogonalizeFrom (o ++ [stepRow o w]) rest := rfl
    rw [e, stepRow_fixed h o w (hw w List.mem_cons_self) fun a ha => (List.pairwise_append.1 hp).2.2 a ha w List.mem_cons_self,
      ih _ (fun x hx => hw x (List.mem_cons_of_mem _ hx)) (by simpa using hp)]
    simp

theorem sumFin_int (h : Rounding rnd u) : ∀ {n : ℕ} (f : Fin n → Rd rnd) (z : Fin n → ℤ), (∀ i, (f i).val = z i) →
    ∑ i, |z i| ≤ 2 ^ 53 → (sumFin f).val = ((∑ i, z i : ℤ) : ℝ) := by
  intro n
  induction n with
  | zero => intro f z _ _; simp [sumFin, h.zero]
  | succ n ih =>
    intro f z hf hz
    rw [Fin.sum_univ_succ] at hz
    have h1 := ih (fun i => f i.succ) (fun i => z i.succ) (fun i => hf _) (by have := abs_nonneg (z 0); omega)
    have h2 : (sumFin f).val = rnd ((f 0).val + (sumFin fun i => f i.succ).val) := rfl
    have h3 : |∑ i, z i| ≤ 2 ^ 53 := (Finset.abs_sum_le_sum_abs _ _).trans (by rw [Fin.sum_univ_succ]; exact hz)
    rw [h2, h1, hf 0, ← h.int _ h3, Fin.sum_univ_succ]
    push_cast
    rfl

/-- whole numbers as a row -/
noncomputable def intRow (rnd : ℝ → ℝ) (z : Fin n → ℤ) : Fin n → Rd rnd := fun i => ⟨(z i : ℝ)⟩

theorem dotRow_int (h : Rounding rnd u) (a b : Fin n → ℤ) (hab : ∑ i, |a i * b i| ≤ 2 ^ 53) :
    (dotRow (intRow rnd a) (intRow rnd b)).val = ((∑ i, a i * b i : ℤ) : ℝ) := by
  refine sumFin_int h _ (fun i => a i * b i) (fun i => ?_) hab
  have : |a i * b i| ≤ 2 ^ 53 := (Finset.single_le_sum (fun j _ => abs_nonneg (a j * b j)) (Finset.mem_univ i)).trans hab
  rw [← h.int _ this]
  push_cast
  rfl

end GS
open GS

/-- **C113** Rows whose inner products are computed as 0 are returned as they are. -/
theorem C113_fixed (h : Rounding rnd u) (v : List (Fin n → Rd rnd)) (hv : ∀ w ∈ v, ∀ i, rnd (w i).val = (w i).val)
    (hp : v.Pairwise fun a b => (dotRow a b).val = 0) : orthogonalize v = v := by
  simpa [orthogonalize] using go_fixed h v [] hv (by simpa using hp)

/-- **C113** Orthogonal rows of whole numbers are returned as they are, as long as the sizes of the products add up to at most `2^53`. -/
theorem C113_integers (h : Rounding rnd u) (v : List (Fin n → ℤ)) (hv : ∀ w ∈ v, ∀ i, |w i| ≤ 2 ^ 53)
    (hp : v.Pairwise fun a b => ∑ i, |a i * b i| ≤ 2 ^ 53 ∧ ∑ i, a i * b i = 0) :
    orthogonalize (v.map (intRow rnd)) = v.map (intRow rnd) := by
  refine C113_fixed h _ ?_ ?_
  · intro w hw i
    obtain ⟨z, hz, rfl⟩ := List.mem_map.1 hw
    exact h.int _ (hv z hz i)
  · rw [List.pairwise_map]
    exact hp.imp fun {a b} hab => by rw [dotRow_int h a b hab.1, hab.2]; simp

namespace GS

/-! ### evaluation -/

noncomputable def upR (w : Fin n → QD) : Fin n → Rd rnd53 := fun i => (w i).toRd

theorem sumFin_up : ∀ {n : ℕ} (f : Fin n → QD), sumFin (fun i => (f i).toRd) = (sumFin f).toRd := by
  intro n
  induction n with
  | zero => intro f; exact QD.toRd_lit 0
  | succ n ih =>
    intro f
    show (f 0).toRd + sumFin (fun i => (f (Fin.succ i)).toRd) = (f 0 + sumFin fun i => f i.succ).toRd
    rw [ih, QD.toRd_add]

theorem dotRow_up (a b : Fin n → QD) : dotRow (upR a) (upR b) = (dotRow a b).toRd := by
  unfold dotRow upR
  simp only [← QD.toRd_mul, sumFin_up]

theorem proj_up (a b : Fin n → QD) : Linalg.proj (upR a) (upR b) = upR (Linalg.proj a b) := by
  funext i
  simp only [Linalg.proj, dotRow_up, upR, ← QD.toRd_div, ← QD.toRd_mul]

theorem pySumRows_up (rows : List (Fin n → QD)) : pySumRows (rows.map upR) = upR (pySumRows rows) := by
  have key : ∀ (rows : List (Fin n → QD)) (s : Fin n → QD),
      (rows.map upR).foldl (fun s r i => s i + r i) (upR s) = upR (rows.foldl (fun s r i => s i + r i) s) := by
    intro rows
    induction rows with
    | nil => intro s; rfl
    | cons r rows ih =>
      intro s
      rw [List.map_cons, List.foldl_cons, List.foldl_cons, ← ih]
      congr 1
      funext i
      simp only [upR, QD.toRd_add]
  have e : (fun _ => Num.lit 0 : Fin n → Rd rnd53) = upR (fun _ => Num.lit 0) := by
    funext i; exact QD.toRd_lit 0
  rw [pySumRows, e, key]; rfl

theorem stepRow_up (o : List (Fin n → QD)) (b : Fin n → QD) : stepRow (o.map upR) (upR b) = upR (stepRow o b) := by
  have e : (o.map upR).map (fun a => Linalg.proj a (upR b)) = (o.map fun a => Linalg.proj a b).map upR := by
    rw [List.map_map, List.map_map]
    exact List.map_congr_left fun a _ => proj_up a b
  funext i
  simp only [stepRow, e, pySumRows_up]
  simp only [upR]
  rw [← QD.toRd_sub]
  rfl

theorem go_up : ∀ (rest o : List (Fin n → QD)), orthogonalizeFrom (o.map upR) (rest.map upR) = (orthogonalizeFrom o rest).map upR := by
  intro rest
  induction rest with
  | nil => intro o; rfl
  | cons w rest ih =>
    intro o
    show orthogonalizeFrom (o.map upR ++ [stepRow (o.map upR) (upR w)]) (rest.map upR) = _
    rw [stepRow_up, ← List.map_singleton (f := upR), ← List.map_append, ih]
    rfl

theorem unitRow_up (w : Fin n → QD) : unitRow (upR w) = upR (unitRow w) := by
  funext i
  simp only [unitRow, dotRow_up, upR, ← QD.toRd_sqrt, ← QD.toRd_div]

theorem orthogonalize_up (v : List (Fin n → QD)) : orthogonalize (v.map upR) = (orthogonalize v).map upR := go_up v []

theorem orthonormalize_up (v : List (Fin n → QD)) : orthonormalize (v.map upR) none = .ok (((orthogonalize v).map unitRow).map upR) := by
  rw [orthonormalize_all, orthogonalize_up, List.map_map, List.map_map]
  congr 1
  exact List.map_congr_left fun w _ => unitRow_up w

/-- rows at small angles to each other -/
def flat : List (Fin 3 → QD) :=
  [![⟨1⟩, ⟨1 / 2 ^ 27⟩, ⟨1 / 2 ^ 27⟩], ![⟨1⟩, ⟨1 / 2 ^ 27⟩, ⟨0⟩], ![⟨1⟩, ⟨0⟩, ⟨1 / 2 ^ 27⟩]]

/-- the rows computed for `flat` -/
def flatUnit : List (Fin 3 → QD) := (orthogonalize flat).map unitRow

theorem flat_double : ∀ w ∈ flat, ∀ i, rndQ (w i).val = (w i).val := by decide +kernel

theorem flat_len : flatUnit.length = 3 := by decide +kernel

theorem flat_inner : 7 / 10 < ((flatUnit[1]'(by rw [flat_len]; norm_num)) 0).val * ((flatUnit[2]'(by rw [flat_len]; norm_num)) 0).val +
    ((flatUnit[1]'(by rw [flat_len]; norm_num)) 1).val * ((flatUnit[2]'(by rw [flat_len]; norm_num)) 1).val +
    ((flatUnit[1]'(by rw [flat_len]; norm_num)) 2).val * ((flatUnit[2]'(by rw [flat_len]; norm_num)) 2).val := by
  decide +kernel

end GS
open GS

/-- **C113** Orthogonality can be lost altogether: for three linearly independent rows of doubles the second and third row of the result
of `orthonormalize`, which should be orthogonal unit vectors, have inner product above `7/10`. -/
theorem C113_lost : ∃ v : List (Fin 3 → Rd rnd53), v.length = 3 ∧ (∀ w ∈ v, ∀ i, rnd53 (w i).val = (w i).val) ∧
    Independent (v.map vals) ∧ ∃ a b c, orthonormalize v none = .ok [a, b, c] ∧ 7 / 10 < vals b ⬝ᵥ vals c := by
  refine ⟨flat.map upR, rfl, ?_, ?_, ?_⟩
  · intro w hw i
    obtain ⟨q, hq, rfl⟩ := List.mem_map.1 hw
    show rnd53 (((q i).val : ℚ) : ℝ) = ((q i).val : ℝ)
    rw [rnd53_rat, flat_double q hq i]
  · unfold Independent
    rw [Fintype.linearIndependent_iff]
    intro g hg
    have e : ∀ i : Fin 3, g (0 : Fin 3) * vals (upR ![⟨1⟩, ⟨1 / 2 ^ 27⟩, ⟨1 / 2 ^ 27⟩]) i + g (1 : Fin 3) * vals (upR ![⟨1⟩, ⟨1 / 2 ^ 27⟩, ⟨0⟩]) i +
        g (2 : Fin 3) * vals (upR ![⟨1⟩, ⟨0⟩, ⟨1 / 2 ^ 27⟩]) i = 0 := by
      intro i
      have := congrFun hg i
      rw [Finset.sum_apply] at this
      have h3 := Fin.sum_univ_three (fun j : Fin 3 => (g j • ((flat.map upR).map vals)[j]) i)
      exact h3.symm.trans this
    have e0 := e 0
    have e1 := e 1
    have e2 := e 2
    simp [vals, upR] at e0 e1 e2
    have h0 : g (0 : Fin 3) = 0 := by linarith
    have h1 : g (1 : Fin 3) = 0 := by linarith
    have h2 : g (2 : Fin 3) = 0 := by linarith
    intro i
    have : ∀ j : Fin 3, g j = 0 := by
      intro j; fin_cases j <;> assumption
    exact this i
  · refine ⟨upR (flatUnit[0]'(by rw [flat_len]; norm_num)), upR (flatUnit[1]'(by rw [flat_len]; norm_num)),
      upR (flatUnit[2]'(by rw [flat_len]; norm_num)), ?_, ?_⟩
    · rw [orthonormalize_up]
      rfl
    · have h := (Rat.cast_lt (K := ℝ)).mpr flat_inner
      push_cast at h
      rw [dotProduct, Fin.sum_univ_three]
      exact h

/-- **C113** Concrete cases: two rows of the source file's own example, and the bound for them. -/
theorem C113_witness :
    (∃ w, orthogonalize [intRow rnd53 ![3, 1], intRow rnd53 ![2, 2]] = [intRow rnd53 ![3, 1], w] ∧
      |vals (intRow rnd53 ![3, 1]) ⬝ᵥ vals w| ≤ 1 / 2 ^ 40) ∧
    orthogonalize ([![1, 2, 2], ![2, 1, -2], ![2, -2, 1]].map (intRow rnd53)) = [![1, 2, 2], ![2, 1, -2], ![2, -2, 1]].map (intRow rnd53) := by
  constructor
  · obtain ⟨w, h1, h2⟩ := C113_two rounding_rnd53 (intRow rnd53 ![3, 1]) (intRow rnd53 ![2, 2])
      (fun i => by fin_cases i <;> exact rounding_rnd53.int _ (by decide))
      (fun e => by have := congrFun e 0; simp [vals, intRow] at this) (by norm_num)
    refine ⟨w, h1, h2.trans ?_⟩
    have n1 : vnorm (vals (intRow rnd53 ![3, 1])) ≤ 4 := by
      unfold vnorm
      rw [Real.sqrt_le_left (by norm_num)]
      norm_num [dotProduct, Fin.sum_univ_two, vals, intRow]
    have n2 : vnorm (vals (intRow rnd53 ![2, 2])) ≤ 4 := by
      unfold vnorm
      rw [Real.sqrt_le_left (by norm_num)]
      norm_num [dotProduct, Fin.sum_univ_two, vals, intRow]
    have n3 := vnorm_nonneg (vals (intRow rnd53 ![2, 2]))
    have g : gam (1 / 2 ^ 53) (2 * 2 + 6) ≤ 1 / 2 ^ 46 := by norm_num [gam]
    have g0 : 0 ≤ gam (1 / 2 ^ 53) (2 * 2 + 6) := gam_nonneg (by norm_num) (by norm_num)
    refine (mul_le_mul (mul_le_mul_of_nonneg_left g (by norm_num)) (mul_le_mul n1 n2 n3 (by norm_num))
      (mul_nonneg (vnorm_nonneg _) n3) (by norm_num)).trans ?_
    norm_num
  · exact C113_integers rounding_rnd53 _ (by decide) (by decide)

end Blmath.Props
