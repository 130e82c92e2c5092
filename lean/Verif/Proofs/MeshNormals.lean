import Verif.Proofs.Normals
import Verif.Base.Fl

/-!
Lemmas for edges and normals of meshes.
-/

namespace Blmath.Normals
open Blmath.Linalg Blmath.Spec
open scoped Matrix
variable {β γ : Type} {n m : ℕ}

/-- the reals inside another kind of numbers -/
structure Emb {α : Type} [Num α] (e : ℝ → α) : Prop where
  add : ∀ a b, e a + e b = e (a + b)
  sub : ∀ a b, e a - e b = e (a - b)
  mul : ∀ a b, e a * e b = e (a * b)
  neg : ∀ a, -e a = e (-a)
  div : ∀ a b, b ≠ 0 → e a / e b = e (a / b)
  lit : ∀ q : ℚ, Num.lit q = e q
  sqrt : ∀ a, 0 ≤ a → Num.sqrt (e a) = e (Real.sqrt a)
  eq : ∀ a b, Num.eq (e a) (e b) = true ↔ a = b

theorem emb_id : Emb (id : ℝ → ℝ) :=
  ⟨fun _ _ => rfl, fun _ _ => rfl, fun _ _ => rfl, fun _ => rfl, fun _ _ _ => rfl, fun _ => rfl, fun _ _ => rfl,
    fun a b => Num.eq_real a b⟩

theorem emb_fin : Emb Fl.fin :=
  ⟨Fl.add_fin, Fl.sub_fin, Fl.mul_fin, fun _ => rfl, Fl.div_fin, fun _ => rfl, Fl.sqrt_fin, fun a b => by simp [Num.eq, Fl.eq]⟩

/-! ### arrays with three columns -/

theorem flat_get (x : Fin n → Fin 3 → β) (i : Fin n) (k : Fin 3) : (flat x)[(i : ℕ) * 3 + (k : ℕ)]? = some (x i k) := by
  rw [flat_eq, ravel3_get]
  simp

theorem flat_ext {l : List β} {x : Fin n → Fin 3 → β} (hl : l.length = n * 3)
    (h : ∀ (i : Fin n) (k : Fin 3), l[(i : ℕ) * 3 + (k : ℕ)]? = some (x i k)) : l = flat x := by
  apply List.ext_getElem?
  intro t
  by_cases ht : t < n * 3
  · obtain ⟨i, k, rfl⟩ : ∃ i : Fin n, ∃ k : Fin 3, t = (i : ℕ) * 3 + (k : ℕ) :=
      ⟨⟨t / 3, by omega⟩, ⟨t % 3, by omega⟩, by simp only; omega⟩
    rw [h, flat_get]
  · rw [List.getElem?_eq_none (by omega), List.getElem?_eq_none (by rw [flat_length]; omega)]

theorem flat_map (x : Fin n → Fin 3 → β) (g : β → γ) : (flat x).map g = flat fun i k => g (x i k) := by
  apply flat_ext
  · simp [flat_length]
  · intro i k; simp [flat_get]

theorem flat_zip (x : Fin n → Fin 3 → β) (y : Fin n → Fin 3 → γ) :
    (flat x).zip (flat y) = flat fun i k => (x i k, y i k) := by
  apply flat_ext
  · simp [flat_length]
  · intro i k; simp [List.zip, List.getElem?_zipWith, flat_get]

theorem range_flat (f : ℕ → β) (n : ℕ) :
    (List.range (n * 3)).map f = flat fun (i : Fin n) (k : Fin 3) => f ((i : ℕ) * 3 + (k : ℕ)) := by
  apply flat_ext
  · simp
  · intro i k
    have : (i : ℕ) * 3 + (k : ℕ) < n * 3 := by omega
    simp [this]

theorem flatMap_flat (w : Fin n → γ) (f : γ → Fin 3 → β) :
    ((List.ofFn w).flatMap fun i => [f i 0, f i 1, f i 2]) = flat fun i k => f (w i) k := by
  have : ((List.ofFn w).flatMap fun i => [f i 0, f i 1, f i 2]) = ravel3 (List.ofFn fun i => toV (f (w i))) := by
    have e : (List.ofFn fun i => toV (f (w i))) = (List.ofFn w).map fun i => toV (f i) := by
      rw [List.map_ofFn]; rfl
    rw [e, ravel3, List.flatMap_map]
    rfl
  rw [this, flat_eq]

theorem flat_sum (x : Fin n → Fin 3 → ℝ) : (flat x).sum = ∑ i, ∑ k, x i k := by
  induction n with
  | zero => simp [flat]
  | succ n ih =>
    have : flat x = List.ofFn (x 0) ++ flat (fun i => x i.succ) := by
      rw [flat, flat, List.ofFn_succ]; rfl
    rw [this, List.sum_append, ih, Fin.sum_univ_succ, List.sum_ofFn]

theorem flat_mem (x : Fin n → Fin 3 → β) (b : β) : b ∈ flat x ↔ ∃ i k, b = x i k := by
  simp only [flat, List.mem_flatMap, List.mem_ofFn]
  constructor
  · rintro ⟨r, ⟨i, rfl⟩, k, rfl⟩; exact ⟨i, k, rfl⟩
  · rintro ⟨i, k, rfl⟩; exact ⟨_, ⟨i, rfl⟩, k, rfl⟩

/-! ### indices -/

theorem pyIndex_ref {z : ℤ} {i : Fin n} (h : PyRef z i) (x : Fin n → β) : pyIndex (List.ofFn x) z = .ok (x i) := by
  have hi := i.2
  have hj : (if z < 0 then z + ((List.ofFn x).length : ℤ) else z) = (i : ℕ) := by
    rw [List.length_ofFn]
    rcases h with h | h
    · rw [if_neg (by omega)]; omega
    · rw [if_pos (by omega)]; omega
  rw [pyIndex]
  simp only [hj]
  rw [if_neg (by omega)]
  simp

theorem pyIndex_bad {z : ℤ} (h : ∀ i : Fin n, ¬ PyRef z i) (x : Fin n → β) :
    pyIndex (List.ofFn x) z = raise .IndexError := by
  rw [pyIndex]
  simp only [List.length_ofFn]
  obtain ⟨w, hw⟩ : ∃ w, w = if z < 0 then z + (n : ℤ) else z := ⟨_, rfl⟩
  rw [← hw]
  by_cases h1 : w < 0
  · rw [if_pos h1]
  · rw [if_neg h1]
    obtain ⟨j, rfl⟩ := Int.eq_ofNat_of_zero_le (not_lt.1 h1)
    have : ¬ j < n := by
      intro hjn
      apply h ⟨j, hjn⟩
      unfold PyRef
      simp only
      split at hw <;> omega
    simp [this]

theorem corner_ref {c : ℤ} {a : Fin 3} (h : PyRef c a) (f : Fin 3 → ℤ) : corner ⟨f 0, f 1, f 2⟩ c = .ok (f a) := by
  have := pyIndex_ref h f
  rwa [show List.ofFn f = [f 0, f 1, f 2] by simp [List.ofFn_succ]] at this

theorem mapM_ofFn_ok {g : β → PyM γ} {x : Fin m → β} {y : Fin m → γ} (h : ∀ t, g (x t) = .ok (y t)) :
    (List.ofFn x).mapM g = .ok (List.ofFn y) := by
  induction m with
  | zero => simp
  | succ m ih =>
    rw [List.ofFn_succ, List.ofFn_succ, List.mapM_cons, h, ih (x := fun i => x i.succ) (y := fun i => y i.succ) fun t => h t.succ]
    rfl

theorem mapM_error {g : β → PyM γ} {l : List β} {e : PyErr} (h : ∀ x ∈ l, (∃ y, g x = .ok y) ∨ g x = .error e)
    (hex : ∃ x ∈ l, g x = .error e) : l.mapM g = .error e := by
  induction l with
  | nil => simp at hex
  | cons a l ih =>
    rw [List.mapM_cons]
    rcases h a (by simp) with ⟨y, hy⟩ | he
    · rw [hy]
      simp only [ok_bind]
      rw [ih (fun x hx => h x (by simp [hx])) (by
        obtain ⟨x, hx, he⟩ := hex
        rcases List.mem_cons.1 hx with rfl | hx
        · rw [hy] at he; cases he
        · exact ⟨x, hx, he⟩)]
      rfl
    · rw [he]; rfl

/-! ### edges and normals of faces -/

section
variable {α : Type} [Num α] {e : ℝ → α} (he : Emb e)
include he

theorem edgesFor_ok {f : Fin m → Fin 3 → ℤ} {g : Fin m → Fin 3 → Fin n} {cp cm : ℤ} {a b : Fin 3}
    (hp : PyRef cp a) (hm : PyRef cm b) (ha : ∀ t, PyRef (f t a) (g t a)) (hb : ∀ t, PyRef (f t b) (g t b))
    (v : Fin n → Fin 3 → ℝ) :
    edgesFor (flat fun i k => e (v i k)) (faceList f) cp cm = .ok (flat fun t k => e (edgeMap g a b v t k)) := by
  have hc : ∀ (c : ℤ) (a : Fin 3), PyRef c a → corner ⟨0, 0, 0⟩ c = .ok 0 := fun c a h => corner_ref h (fun _ => 0)
  have hmap : ∀ (c : ℤ) (a : Fin 3), PyRef c a → (∀ t, PyRef (f t a) (g t a)) →
      ((faceList f).mapM fun t => do
        let i ← corner t c
        pyIndex (List.ofFn fun i => toV fun k => e (v i k)) i) =
      .ok (List.ofFn fun t => toV fun k => e (v (g t a) k)) := by
    intro c a h h'
    apply mapM_ofFn_ok
    intro t
    rw [corner_ref h (f t)]
    simp only [ok_bind]
    exact pyIndex_ref (h' t) _
  rw [edgesFor, rows3_flat]
  simp only [ok_bind]
  rw [hc _ _ hp, hc _ _ hm]
  simp only [ok_bind]
  rw [hmap _ _ hp ha, hmap _ _ hm hb]
  simp only [ok_bind, pure_eq_ok]
  rw [flat_eq]
  congr 2
  apply List.ext_getElem
  · simp
  · intro i h1 h2
    simp only [List.getElem_zipWith, List.getElem_ofFn]
    ext <;> simp [edgeMap, he.sub]

theorem blockApp_skewA_emb (a b : Fin 3 → ℝ) :
    blockApp (skewA (toV fun k => e (a k))) (toV fun k => e (b k)) = toV fun k => e ((a ⨯₃ b) k) := by
  have hz : (Num.lit 0 : α) = e 0 := by rw [he.lit]; simp
  ext <;> simp only [blockApp, skewA, V3.dot, cross_apply, toV_x, toV_y, toV_z, hz, he.neg, he.mul, he.add] <;>
    congr 1 <;> simp <;> ring

theorem crossR_emb (a b : Fin n → Fin 3 → ℝ) : crossR (flat fun i k => e (a i k)) (flat fun i k => e (b i k)) =
    .ok (flat fun i k => e (crossRows a b i k)) := by
  rw [crossR, rows3_flat, rows3_flat]
  simp only [ok_bind]
  rw [einsumMatvec, if_neg (by simp [flat_length]), rows3_flat, flat_eq]
  simp only [ok_bind, pure_eq_ok]
  congr 2
  apply List.ext_getElem
  · simp
  · intro i h1 h2
    simp [blockApp_skewA_emb he, crossRows]

theorem triNormalsScaled_ok {f : Fin m → Fin 3 → ℤ} {g : Fin m → Fin 3 → Fin n} (h : ∀ t c, PyRef (f t c) (g t c))
    (v : Fin n → Fin 3 → ℝ) :
    triNormalsScaled (flat fun i k => e (v i k)) (faceList f) = .ok (flat fun t k => e (faceNormals g v t k)) := by
  have r0 : PyRef 0 (0 : Fin 3) := .inl rfl
  have r1 : PyRef 1 (1 : Fin 3) := .inl rfl
  have r2 : PyRef 2 (2 : Fin 3) := .inl rfl
  rw [triNormalsScaled,
    edgesFor_ok he r1 r0 (fun t => h t 1) (fun t => h t 0) v,
    edgesFor_ok he r2 r0 (fun t => h t 2) (fun t => h t 0) v]
  simp only [ok_bind]
  rw [crossR_emb he]
  rfl

/-! ### vertices -/

theorem sumL_filterMap {l : List β} {h : β → Option α} {H : β → ℝ}
    (hh : ∀ x ∈ l, (h x = none ∧ H x = 0) ∨ h x = some (e (H x))) : sumL (l.filterMap h) = e (l.map H).sum := by
  induction l with
  | nil => simp [sumL, he.lit]
  | cons a l ih =>
    have ih' := ih fun x hx => hh x (by simp [hx])
    rcases hh a (by simp) with ⟨h1, h2⟩ | h1
    · rw [List.filterMap_cons_none h1, ih']; simp [h2]
    · rw [List.filterMap_cons_some h1, sumL, ih', he.add]; simp

/-- the stored entries of one coordinate -/
def fbvPart (g : Fin m → Fin 3 → Fin n) (c : ℕ) (w : Fin n → α) : List (ℕ × ℕ × α) :=
  flat fun t k => ((g t k : ℕ) * 3 + c, (t : ℕ) * 3 + c, w (g t k))

omit he in
theorem facesByVertex_ok (f : Fin m → Fin 3 → ℤ) (g : Fin m → Fin 3 → Fin n) (h : ∀ t c, f t c = (g t c : ℕ)) :
    facesByVertex (α := α) (n * 3) (faceList f) = .ok ⟨n * 3, m * 3,
      fbvPart g 0 (fun _ => Num.lit 1) ++ fbvPart g 1 (fun _ => Num.lit 1) ++ fbvPart g 2 (fun _ => Num.lit 1)⟩ := by
  have hl : (faceList f).length = m := by simp [faceList]
  have h1 : ravel3 (faceList f) = flat f := by rw [flat_eq]; rfl
  have h2 : ((List.range m).flatMap fun (j : ℕ) => [(j : ℤ), j, j]) = flat fun (t : Fin m) _ => ((t : ℕ) : ℤ) := by
    have := flatMap_flat (fun t : Fin m => ((t : ℕ) : ℤ)) (fun z _ => z)
    rw [← this]
    have e2 : (List.ofFn fun t : Fin m => ((t : ℕ) : ℤ)) = (List.range m).map fun j : ℕ => (j : ℤ) := by
      rw [List.ofFn_eq_map, ← List.map_coe_finRange_eq_range, List.map_map]; rfl
    rw [e2, List.flatMap_map]
  rw [facesByVertex]
  simp only [hl, h1, h2, flat_zip, flat_map]
  rw [cscFromEntries, if_pos]
  · simp only [List.map_append, flat_map, fbvPart]
    congr 4
    · congr 2
      funext t k
      rw [h]
      simp only [Prod.mk.injEq, and_true]
      omega
    all_goals
      congr 1
      funext t k
      rw [h]
      simp only [Prod.mk.injEq, and_true]
      omega
  · intro x hx
    simp only [List.mem_append, flat_mem] at hx
    have key : ∀ (t : Fin m) (k : Fin 3), 0 ≤ f t k ∧ f t k < n := by
      intro t k; rw [h]; have := (g t k).2; omega
    rcases hx with (⟨t, k, rfl⟩ | ⟨t, k, rfl⟩) | ⟨t, k, rfl⟩ <;>
    · have := key t k
      have := t.2
      simp only
      omega

theorem sum_part (g : Fin m → Fin 3 → Fin n) (w : Fin n → ℝ) (y : Fin m → Fin 3 → ℝ) (i : Fin n) (k c : Fin 3) :
    (fbvPart g c (fun i => e (w i))).filterMap (fun t => if t.1 = (i : ℕ) * 3 + (k : ℕ) then
      ((flat fun t k => e (y t k))[t.2.1]?).map (t.2.2 * ·) else none) =
    if c = k then (flat fun t k => (t, k)).filterMap (fun p => if g p.1 p.2 = i then some (e (w i * y p.1 k)) else none)
    else [] := by
  have e1 : fbvPart g c (fun i => e (w i)) = (flat fun (t : Fin m) (k : Fin 3) => (t, k)).map
      fun p => ((g p.1 p.2 : ℕ) * 3 + (c : ℕ), (p.1 : ℕ) * 3 + (c : ℕ), e (w (g p.1 p.2))) := by
    rw [flat_map]; rfl
  rw [e1, List.filterMap_map]
  by_cases hck : c = k
  · subst hck
    rw [if_pos rfl]
    congr 1
    funext p
    have hc := c.2
    simp only [Function.comp_apply]
    by_cases hg : g p.1 p.2 = i
    · rw [if_pos (by rw [hg]), if_pos hg, flat_get, hg]
      simp [he.mul]
    · rw [if_neg (by intro h; apply hg; apply Fin.ext; omega), if_neg hg]
  · rw [if_neg hck, List.filterMap_eq_nil_iff]
    intro p _
    simp only [Function.comp_apply]
    rw [if_neg]
    intro h
    apply hck
    have hc := c.2
    have hk := k.2
    apply Fin.ext
    omega

theorem entMulVec_fbv (g : Fin m → Fin 3 → Fin n) (w : Fin n → ℝ) (y : Fin m → Fin 3 → ℝ) :
    entMulVec ⟨n * 3, m * 3, fbvPart g 0 (fun i => e (w i)) ++ fbvPart g 1 (fun i => e (w i)) ++ fbvPart g 2 (fun i => e (w i))⟩
      (flat fun t k => e (y t k)) =
    .ok (flat fun i k => e (w i * ∑ t, ∑ c, if g t c = i then y t k else 0)) := by
  rw [entMulVec, if_neg (by simp [flat_length])]
  congr 1
  rw [range_flat]
  congr 1
  funext i k
  have p0 := sum_part he g w y i k 0
  have p1 := sum_part he g w y i k 1
  have p2 := sum_part he g w y i k 2
  simp only [Fin.val_zero, Fin.val_one, Fin.val_two] at p0 p1 p2
  simp only [List.filterMap_append, p0, p1, p2]
  have hsum : sumL ((flat fun (t : Fin m) (k : Fin 3) => (t, k)).filterMap
      (fun p => if g p.1 p.2 = i then some (e (w i * y p.1 k)) else none)) =
      e (w i * ∑ t, ∑ c, if g t c = i then y t k else 0) := by
    rw [sumL_filterMap he (H := fun p => if g p.1 p.2 = i then w i * y p.1 k else 0) (by
      intro p _
      by_cases h : g p.1 p.2 = i
      · right; simp [h]
      · left; simp [h])]
    rw [flat_map, flat_sum, Finset.mul_sum]
    congr 1
    refine Finset.sum_congr rfl fun t _ => ?_
    rw [Finset.mul_sum]
    refine Finset.sum_congr rfl fun c _ => ?_
    split <;> simp
  rw [← hsum]
  fin_cases k <;> simp

end

end Blmath.Normals
