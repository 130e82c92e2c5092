import Verif.Spec.Measure
import Verif.Props.Motion
import Verif.Props.CoordinateManager
import Verif.Props.Units
import Mathlib.LinearAlgebra.Matrix.ToLinearEquiv

/-!
C137: what moving, turning, scaling and converting units do to measured lengths.
-/

namespace Blmath.Props
open Blmath Blmath.Geometry Blmath.Spec Blmath.Proofs Blmath.Proofs.MO

variable {β : Type}

namespace MS

/-- a stored pair whose forward matrix multiplies distances by `c` -/
def PairGrows (t : Mat 4 4 ℝ × Mat 4 4 ℝ) (c : ℝ) : Prop := PairOk t ∧ Similarity (affMap t.1) c

theorem affMap_along (m : Mat 4 4 ℝ) (a b : V3 ℝ) (t : ℝ) :
    affMap m (along a t (vec3 a b)) = along (affMap m a) t (vec3 (affMap m a) (affMap m b)) := by
  simp only [affMap, along, vec3]
  ext <;> simp only <;> ring

theorem sim_id : Similarity (fun p : V3 ℝ => p) 1 := ⟨fun _ _ _ => rfl, one_pos, fun _ _ => by ring⟩

theorem sim_comp {g h : V3 ℝ → V3 ℝ} {c d : ℝ} (hg : Similarity g c) (hh : Similarity h d) : Similarity (fun p => h (g p)) (d * c) :=
  ⟨fun a b t => by rw [hg.affine, hh.affine], mul_pos hh.pos hg.pos, fun a b => by rw [hh.dist, hg.dist, mul_assoc]⟩

theorem sim_back {t : Mat 4 4 ℝ × Mat 4 4 ℝ} {c : ℝ} (h : PairGrows t c) : Similarity (affMap t.2) c⁻¹ := by
  obtain ⟨⟨h1, h2, h3, h4⟩, hs⟩ := h
  have e : ∀ p, affMap t.1 (affMap t.2 p) = p := fun p => by rw [← affMap_mul h2, h3, affMap_one]
  refine ⟨affMap_along _, inv_pos.mpr hs.pos, fun a b => ?_⟩
  have := hs.dist (affMap t.2 a) (affMap t.2 b)
  rw [e, e] at this
  rw [this, inv_mul_cancel_left₀ hs.pos.ne']

theorem sim_place {R : Mat 3 3 ℝ} (hR : R.transpose * R = 1) {c : ℝ} (hc : 0 < c) (T : V3 ℝ) : Similarity (place c R T) c :=
  (C115_rigid hR hc T ⟨T, T⟩).1

theorem sim_scale {c : ℝ} (hc : 0 < c) : Similarity (scale3 c) c := by
  have h := sim_place (R := 1) (by simp) hc ⟨0, 0, 0⟩
  have e : place c 1 ⟨0, 0, 0⟩ = scale3 c := by
    funext p; simp [place, scale3, act_eq]
  rwa [e] at h

theorem sim_move (v : V3 ℝ) : Similarity (fun p => p + v) 1 := by
  have h := sim_place (R := 1) (by simp) one_pos v
  have e : place 1 1 v = fun p => p + v := by
    funext p; ext <;> simp [place, act_eq]
  rwa [e] at h

theorem sim_turn {R : Mat 3 3 ℝ} (hR : R.transpose * R = 1) : Similarity (act R) 1 := by
  have h := sim_place hR one_pos ⟨0, 0, 0⟩
  have e : place 1 R ⟨0, 0, 0⟩ = act R := by
    funext p; ext <;> simp [place]
  rwa [e] at h

theorem det_ne {f : Mat 4 4 ℝ} (hf : Affine f) {c : ℝ} (hs : Similarity (affMap f) c) : f.det ≠ 0 := by
  intro h0
  obtain ⟨v, hv, hz⟩ := Matrix.exists_mulVec_eq_zero_iff.mpr h0
  obtain ⟨f0, f1, f2, f3⟩ := hf
  have e : ∀ i, Matrix.mulVec f v i = 0 := fun i => congrFun hz i
  simp only [Matrix.mulVec, dotProduct, Fin.sum_univ_four] at e
  have e0 := e 0; have e1 := e 1; have e2 := e 2; have e3 := e 3
  rw [f0, f1, f2, f3] at e3
  have h3 : v 3 = 0 := by linarith
  have hd := hs.dist ⟨v 0, v 1, v 2⟩ ⟨0, 0, 0⟩
  have hsame : affMap f ⟨v 0, v 1, v 2⟩ = affMap f ⟨0, 0, 0⟩ := by
    simp only [affMap]
    rw [h3] at e0 e1 e2
    ext <;> simp only <;> linarith
  rw [hsame] at hd
  have h1 : dist3 (affMap f ⟨0, 0, 0⟩) (affMap f ⟨0, 0, 0⟩) = 0 := by simp [dist3, len3, vec3]
  rw [h1] at hd
  have h2 : dist3 (⟨v 0, v 1, v 2⟩ : V3 ℝ) ⟨0, 0, 0⟩ = 0 := by
    rcases mul_eq_zero.mp hd.symm with h | h
    · exact absurd h hs.pos.ne'
    · exact h
  have h4 : vec3 (⟨v 0, v 1, v 2⟩ : V3 ℝ) ⟨0, 0, 0⟩ = zero3 := len3_eq_zero.mp h2
  apply hv
  simp only [vec3, zero3, V3.mk.injEq] at h4
  funext i
  fin_cases i <;> simp only [Pi.zero_apply]
  · show v 0 = 0; linarith [h4.1]
  · show v 1 = 0; linarith [h4.2.1]
  · show v 2 = 0; linarith [h4.2.2]
  · exact h3

abbrev Grown (st : Composite ℝ) (fs : List ℝ) : Prop := List.Forall₂ PairGrows st fs

theorem grown_add {st : Composite ℝ} {fs : List ℝ} (h : Grown st fs) {F B : Mat 4 4 ℝ} {c : ℝ} (hF : Affine F) (hB : B * F = 1)
    (hs : Similarity (affMap F) c) : Grown (st ++ [(F, B)]) (fs ++ (some c).toList) := by
  apply List.rel_append h
  exact .cons ⟨pairOk_of hF hB, hs⟩ .nil

theorem append4_grown {inv} (hinv : InvSpec inv) {st : Composite ℝ} {fs : List ℝ} (h : Grown st fs) {f : Mat 4 4 ℝ}
    {r : Option (Mat 4 4 ℝ)} {c : ℝ} (hf : Affine f) (hs : Similarity (affMap f) c) (hr : ∀ b, r = some b → b * f = 1) :
    Grown (append4 inv st f r).1 (fs ++ (some c).toList) := by
  unfold append4
  cases r with
  | none =>
    simp only
    cases hi : inv f with
    | error e => exact absurd (hinv.fails _ _ hi).1 (det_ne hf hs)
    | ok b => exact grown_add h hf (hinv.inverse _ _ hi).2 hs
  | some r => exact grown_add h hf (hr r rfl) hs

theorem scale_grown {inv} {st : Composite ℝ} {fs : List ℝ} (h : Grown st fs) {x : ℝ} (hx : 0 < x) :
    Grown (scaleT inv st x).1 (fs ++ (some x).toList) := by
  unfold scaleT
  rw [if_neg (by simpa using hx)]
  simp only [append3, convert33To44, append4]
  refine grown_add h (affine_pad44 _) ?_ ?_
  · rw [pad44_mul, Mat.diag_real, Mat.diag_real, Matrix.diagonal_mul_diagonal]
    simp only [Num.lit_real, Rat.cast_one, one_div, inv_mul_cancel₀ hx.ne']
    rw [Matrix.diagonal_one, pad44_one]
  · have e : affMap (pad44 (Mat.diag fun _ => x)) = scale3 x := by
      funext p
      rw [affMap_pad44, Mat.diag_real]
      ext <;> simp [act_eq, scale3]
    rw [e]; exact sim_scale hx

theorem rotation_grown {inv} {st : Composite ℝ} {fs : List ℝ} (h : Grown st fs) {R : Mat 3 3 ℝ} (hR : IsRotation R) :
    Grown (appendRotation inv st (.ok R)).1 (fs ++ (some 1).toList) := by
  simp only [appendRotation, append3, convert33To44, append4]
  refine grown_add h (affine_pad44 _) ?_ ?_
  · rw [pad44_mul, Mat.tr_eq, hR.1, pad44_one]
  · rw [show affMap (pad44 R) = act R from funext (affMap_pad44 R)]
    exact sim_turn hR.1

theorem step_grown {inv} (hinv : InvSpec inv) {svd : Svd3 ℝ} {st : Composite ℝ} {fs : List ℝ} (h : Grown st fs) {op : TOp ℝ}
    {c : Option ℝ} (hop : Grows svd op c) : Grown (stepT inv svd st op) (fs ++ c.toList) := by
  have hu : ∀ a b k, Units.factor (α := ℝ) a b (some "length") = .ok k → 0 < k →
      Grown (stepT inv svd st (.convertUnits a b)) (fs ++ (some k).toList) := by
    intro a b k hk hp
    simp only [stepT, convertUnitsT, hk]
    exact scale_grown h hp
  have hn : ∀ a b e, Units.factor (α := ℝ) a b (some "length") = .error e →
      Grown (stepT inv svd st (.convertUnits a b)) (fs ++ (none : Option ℝ).toList) := by
    intro a b e hk
    simp only [stepT, convertUnitsT, hk]
    simpa using h
  cases hop with
  | scale hx => exact scale_grown h hx
  | badScale hx =>
    simp only [stepT, scaleT]
    rw [if_pos (by simpa using hx)]
    simpa using h
  | @units a b A B ha hb hA hB =>
    apply hu _ _ _ _ (div_pos (Units.size_pos ha) (Units.size_pos hb))
    by_cases hab : a = b
    · subst hab
      have : A = B := by
        have := ha.symm.trans hb
        simpa using this
      subst this
      rw [div_self (Units.size_pos ha).ne']
      exact (C02_decision _ _ _).1 (Or.inl rfl)
    · refine (((C02_decision (some a) (some b) (some "length")).2 ?_).2 a b A B rfl rfl ha hb).1 ⟨hA.trans hB.symm, Or.inr (by rw [hA])⟩
      rintro (h | h)
      · exact hab (by simpa using h)
      · exact absurd h.1 (by have := Units.blank_unit ha; simp [this])
  | sameUnit a => exact hu _ _ _ ((C02_decision _ _ _).1 (Or.inl rfl)) one_pos
  | @notLength a b A B hab ha hb hc =>
    refine hn _ _ .ValueError ((((C02_decision (some a) (some b) (some "length")).2 ?_).2 a b A B rfl rfl ha hb).2 ?_)
    · rintro (h | h)
      · exact hab (by simpa using h)
      · exact absurd h.1 (by have := Units.blank_unit ha; simp [this])
    · rintro ⟨h1, h2⟩
      have h2 : A.cls = "length" := by
        rcases h2 with h2 | h2
        · simp [Units.blank] at h2
        · simpa using h2.symm
      rcases hc with hc | hc
      · exact hc h2
      · exact hc (h1 ▸ h2)
  | @unknownUnit a b hab hc =>
    refine hn _ _ .KeyError (((C02_decision (some a) (some b) (some "length")).2 ?_).1 ?_)
    · rintro (h | h)
      · exact hab (by simpa using h)
      · have ha : a = "" := by simpa [Units.blank] using h.1
        have hb : b = "" := by simpa [Units.blank] using h.2
        exact hab (ha.trans hb.symm)
    · have bad : ∀ u, Unknown u → ¬ ∃ n A, some u = some n ∧ UnitIs n A := by
        rintro u hu ⟨n, A, h, hA⟩
        cases h
        have : unitOf u = some A := hA
        rw [show unitOf u = none from hu] at this
        cases this
      rcases hc with hc | hc
      · exact Or.inl (bad _ hc)
      · exact Or.inr (bad _ hc)
  | translate v =>
    refine append4_grown hinv h (affine_translation44 v) ?_ ?_
    · rw [show affMap (translation44 v) = fun p => p + v from funext (affMap_translation44 v)]
      exact sim_move v
    · rintro b h'; cases h'; exact translation44_neg v
  | @reorient up look hc =>
    obtain ⟨R, hR, hrot, -⟩ := C49_rotation up look hc
    simp only [stepT, reorientT, hR]
    exact rotation_grown h hrot
  | @badReorient up look hc =>
    simp only [stepT, reorientT, C49_errors up look hc, appendRotation]
    simpa using h
  | rotateVec v => exact rotation_grown h (C51_rotation v)
  | rotate hR =>
    simp only [stepT, rotateT, hR]
    exact rotation_grown h (asRotationMatrix_rot hR)
  | badRotate hR =>
    simp only [stepT, rotateT, hR, appendRotation]
    simpa using h
  | matrix4 hf hs hr => exact append4_grown hinv h hf hs hr
  | @matrix3 f c hs =>
    refine append4_grown hinv h (affine_pad44 f) ?_ (by simp)
    rw [show affMap (pad44 f) = act f from funext (affMap_pad44 f)]
    exact hs
  | @matrix33 f r c hs hr =>
    refine append4_grown hinv h (affine_pad44 f) ?_ ?_
    · rw [show affMap (pad44 f) = act f from funext (affMap_pad44 f)]
      exact hs
    · rintro b h'; cases h'
      rw [pad44_mul, hr, pad44_one]
  | badMatrix k r =>
    simp only [stepT, append3, convert33To44]
    split <;> rename_i he <;> split at he <;> cases he <;> simpa using h

theorem run_grown {inv} (hinv : InvSpec inv) {svd : Svd3 ℝ} {ops : List (TOp ℝ)} {cs : List (Option ℝ)}
    (hops : List.Forall₂ (Grows svd) ops cs) {st : Composite ℝ} {fs : List ℝ} (h : Grown st fs) :
    Grown (runT inv svd st ops) (fs ++ added cs) := by
  induction hops generalizing st fs with
  | nil => simpa [runT, added] using h
  | @cons op c ops cs hop hops ih =>
    have := ih (step_grown hinv h hop)
    have e : fs ++ added (c :: cs) = fs ++ c.toList ++ added cs := by
      cases c <;> simp [added]
    rw [e]; exact this

theorem grown_range {st : Composite ℝ} {fs : List ℝ} (h : Grown st fs) (r) : Grown (selected st r) (ranged fs r) := by
  cases r with
  | none => exact h
  | some ab =>
    obtain ⟨a, b⟩ := ab
    simp only [selected, ranged, pySlice, h.length_eq]
    exact List.forall₂_drop _ (List.forall₂_take _ h)

theorem through_sim {ts : Composite ℝ} {fs : List ℝ} (h : Grown ts fs) : Similarity (through ts) fs.prod ∧ Similarity (back ts) fs.prod⁻¹ := by
  induction h with
  | nil => simpa using ⟨sim_id, sim_id⟩
  | @cons t c ts fs ht hts ih =>
    constructor
    · have := sim_comp ht.2 ih.1
      rw [List.prod_cons, mul_comm]
      exact this
    · have := sim_comp ih.2 (sim_back ht)
      rw [List.prod_cons, mul_inv]
      exact this

theorem pairs {ts : Composite ℝ} {fs : List ℝ} (h : Grown ts fs) : ∀ t ∈ ts, PairOk t := by
  induction h with
  | nil => simp
  | cons ht hts ih =>
    intro s hs
    rcases List.mem_cons.mp hs with rfl | hs
    · exact ht.1
    · exact ih s hs

theorem reversible {svd : Svd3 ℝ} {op : TOp ℝ} {c : Option ℝ} (h : Grows svd op c) : Reversible op := by
  cases h with
  | @matrix4 f r c hf hs hr =>
    cases r with
    | none => exact hf
    | some r => exact ⟨hf, hr r rfl⟩
  | matrix33 hs hr => exact hr
  | _ => trivial

theorem all_reversible {svd : Svd3 ℝ} {ops : List (TOp ℝ)} {cs : List (Option ℝ)} (h : List.Forall₂ (Grows svd) ops cs) :
    ∀ op ∈ ops, Reversible op := by
  induction h with
  | nil => simp
  | cons h _ ih =>
    intro o ho
    rcases List.mem_cons.mp ho with rfl | ho
    · exact reversible h
    · exact ih o ho

theorem pts_inj {v w : List (V3 ℝ)} (h : pts v = pts w) : v = w := by
  simp only [pts, Vx.Arr.mat.injEq, true_and] at h
  refine List.map_injective_iff.mpr ?_ h
  intro a b e
  simp only [V3.toList, List.cons.injEq, and_true] at e
  exact V3.ext e.1 e.2.1 e.2.2

theorem image_poly (g : V3 ℝ → V3 ℝ) (v : List (V3 ℝ)) (closed : Bool) : Polyline.image g (poly v closed) = poly (v.map g) closed := by
  simp [Polyline.image, poly]

end MS
open MS

/-- **C137.** After any history of calls, those that raise included, the call over any range of transforms multiplies all distances by
the product of the factors of the transforms in the range; the reverse call multiplies them by the reciprocal. -/
theorem C137_distances (inv : Mat 4 4 ℝ → PyM (Mat 4 4 ℝ)) (hinv : InvSpec inv) (svd : Svd3 ℝ) (ops : List (TOp ℝ))
    (cs : List (Option ℝ)) (hops : List.Forall₂ (Grows svd) ops cs) (r : Option (Option ℤ × Option ℤ)) :
    let st := runT inv svd [] ops
    st.length = (added cs).length ∧
    ∃ g h, (∀ ps, callT st (pts ps) r false = .ok (pts (ps.map g))) ∧ (∀ ps, callT st (pts ps) r true = .ok (pts (ps.map h))) ∧
      (∀ p, h (g p) = p) ∧ (∀ p, g (h p) = p) ∧
      Similarity g (ranged (added cs) r).prod ∧ Similarity h (ranged (added cs) r).prod⁻¹ := by
  intro st
  have hst : Grown st (added cs) := by simpa using run_grown hinv hops (st := []) (fs := []) .nil
  have hr := grown_range hst r
  exact ⟨hst.length_eq, through (selected st r), back (selected st r), fun ps => call_fwd (pairs hst) ps r,
    fun ps => call_rev (pairs hst) ps r, back_through (pairs hr), through_back (pairs hr), (through_sim hr).1, (through_sim hr).2⟩

/-- **C137.** So the length of a polyline, open or closed, is multiplied by that product, and by its reciprocal on the way back. -/
theorem C137_lengths (inv : Mat 4 4 ℝ → PyM (Mat 4 4 ℝ)) (hinv : InvSpec inv) (svd : Svd3 ℝ) (ops : List (TOp ℝ))
    (cs : List (Option ℝ)) (hops : List.Forall₂ (Grows svd) ops cs) (r : Option (Option ℤ × Option ℤ)) (v : List (V3 ℝ)) (closed : Bool) :
    let st := runT inv svd [] ops
    let k := (ranged (added cs) r).prod
    0 < k ∧
    (∃ w, callT st (pts v) r false = .ok (pts w) ∧ (poly w closed).totalLength = (poly v closed).totalLength.map (fun l => k * l)) ∧
    (∃ w, callT st (pts v) r true = .ok (pts w) ∧ (poly w closed).totalLength = (poly v closed).totalLength.map (fun l => l / k)) := by
  intro st k
  obtain ⟨-, g, h, hg, hh, -, -, sg, sh⟩ := C137_distances inv hinv svd ops cs hops r
  refine ⟨sg.pos, ⟨_, hg v, ?_⟩, ⟨_, hh v, ?_⟩⟩
  · rw [← image_poly]
    exact (C115_lengths sg _).2.1
  · rw [← image_poly, (C115_lengths sh _).2.1]
    congr 1
    funext l
    rw [div_eq_inv_mul]

/-- **C137.** In particular converting units and measuring agree: whatever is done before and after that leaves lengths alone, the
length of the converted polyline is the converted length. -/
theorem C137_units (inv : Mat 4 4 ℝ → PyM (Mat 4 4 ℝ)) (hinv : InvSpec inv) (svd : Svd3 ℝ) (pre post : List (TOp ℝ))
    (cs ds : List (Option ℝ)) (hpre : List.Forall₂ (Grows svd) pre cs) (hpost : List.Forall₂ (Grows svd) post ds)
    (hcs : ∀ c, some c ∈ cs → c = 1) (hds : ∀ c, some c ∈ ds → c = 1)
    {a b : String} {A B : UnitDef} (ha : UnitIs a A) (hb : UnitIs b B) (hA : A.cls = "length") (hB : B.cls = "length")
    (v : List (V3 ℝ)) (closed : Bool) :
    ∃ w, callT (runT inv svd [] (pre ++ .convertUnits (some a) (some b) :: post)) (pts v) none false = .ok (pts w) ∧
      ∀ L, (poly v closed).totalLength = .ok L → ∃ L', (poly w closed).totalLength = .ok L' ∧
        Units.convert (some L) (some a) (some b) (some "length") = .ok (some L', some b) ∧
        quantity L' B = quantity L A := by
  have hone : ∀ cs : List (Option ℝ), (∀ c, some c ∈ cs → c = 1) → (added cs).prod = 1 := by
    intro cs hc
    apply List.prod_eq_one
    intro c h
    simp only [added, List.mem_filterMap, id_eq] at h
    obtain ⟨x, hx, rfl⟩ := h
    exact hc c hx
  have hall : List.Forall₂ (Grows svd) (pre ++ .convertUnits (some a) (some b) :: post) (cs ++ some (A.size / B.size) :: ds) :=
    List.rel_append hpre (.cons (.units ha hb hA hB) hpost)
  obtain ⟨-, ⟨w, hw, hl⟩, -⟩ := C137_lengths inv hinv svd _ _ hall none v closed
  have hk : (ranged (added (cs ++ some (A.size / B.size) :: ds)) none).prod = A.size / B.size := by
    simp only [ranged]
    have : added (cs ++ some (A.size / B.size) :: ds) = added cs ++ (A.size / B.size) :: added ds := by simp [added]
    rw [this, List.prod_append, List.prod_cons, hone cs hcs, hone ds hds]
    ring
  refine ⟨w, hw, fun L hL => ⟨A.size / B.size * L, ?_, ?_, ?_⟩⟩
  · rw [hl, hL, hk]; rfl
  · have hf : Units.factor (α := ℝ) (some a) (some b) (some "length") = .ok (A.size / B.size) := by
      by_cases hab : a = b
      · subst hab
        have : A = B := by
          have := ha.symm.trans hb
          simpa using this
        subst this
        rw [div_self (Units.size_pos ha).ne']
        exact (C02_decision _ _ _).1 (Or.inl rfl)
      · refine (((C02_decision (some a) (some b) (some "length")).2 ?_).2 a b A B rfl rfl ha hb).1 ⟨hA.trans hB.symm, Or.inr (by rw [hA])⟩
        rintro (h | h)
        · exact hab (by simpa using h)
        · exact absurd h.1 (by have := Units.blank_unit ha; simp [this])
    unfold Units.convert
    rw [hf, mul_comm]
    rfl
  · have := (Units.size_pos hb).ne'
    simp only [quantity]
    field_simp

/-- **C137.** And for sections of meshes: each plane has an image, and the sections of the moved mesh by it are the moved sections, as
many as before and in the same order, with their lengths multiplied by the product. -/
theorem C137_sections (inv : Mat 4 4 ℝ → PyM (Mat 4 4 ℝ)) (hinv : InvSpec inv) (svd : Svd3 ℝ) (ops : List (TOp ℝ))
    (cs : List (Option ℝ)) (hops : List.Forall₂ (Grows svd) ops cs) (r : Option (Option ℤ × Option ℤ)) (pl : Plane ℝ) (hu : UnitNormal pl)
    (vs : List (V3 ℝ)) (fs : List (ℕ × ℕ × ℕ)) :
    let k := (ranged (added cs) r).prod
    ∃ ws pl', callT (runT inv svd [] ops) (pts vs) r false = .ok (pts ws) ∧ UnitNormal pl' ∧
      (∀ q, (∃ w, callT (runT inv svd [] ops) (pts [q]) r false = .ok (pts [w]) ∧ OnPlane pl' w) ↔ OnPlane pl q) ∧
      ∀ ver pk ko ss, pl.meshXsections ver pk ko ⟨vs, fs⟩ = .ok ss →
        ∃ ss', pl'.meshXsections ver pk ko ⟨ws, fs⟩ = .ok ss' ∧
          List.Forall₂ (fun s s' => s'.closed = s.closed ∧
            (poly s'.v s'.closed).totalLength = (poly s.v s.closed).totalLength.map (fun l => k * l)) ss ss' := by
  intro k
  obtain ⟨-, g, -, hg, -, -, -, sg, -⟩ := C137_distances inv hinv svd ops cs hops r
  obtain ⟨g', pl', hg', hn, hon, hsec⟩ := C115_composite inv hinv svd ops (all_reversible hops) r pl hu
  have e : g' = g := by
    funext p
    have h := (hg' [p]).symm.trans (hg [p])
    simpa using pts_inj (Except.ok.inj h)
  subst e
  refine ⟨vs.map g', pl', hg vs, hn, ?_, ?_⟩
  · intro q
    rw [← hon q]
    constructor
    · rintro ⟨w, hw, hp⟩
      have h := hw.symm.trans (hg [q])
      have : w = g' q := by simpa using pts_inj (Except.ok.inj h)
      exact this ▸ hp
    · intro h
      exact ⟨_, hg [q], h⟩
  · intro ver pk ko ss hss
    have h := hsec ver pk ko ⟨vs, fs⟩
    rw [hss] at h
    refine ⟨_, h, ?_⟩
    rw [List.forall₂_map_right_iff, List.forall₂_same]
    intro s _
    refine ⟨rfl, ?_⟩
    show (poly (s.v.map g') s.closed).totalLength = _
    rw [← image_poly]
    exact (C115_lengths sg _).2.1

/-- **C137.** With the coordinate manager: points set at one tag and read at another have their lengths multiplied by the product of the
factors of the calls made between the two tags. -/
theorem C137_manager (inv : Mat 4 4 ℝ → PyM (Mat 4 4 ℝ)) (hinv : InvSpec inv) (svd : Svd3 ℝ) (ver : PyVer) (ops : List (MOp ℝ β))
    (hops : Program ops) (mid : List (TOp ℝ)) (cs : List (Option ℝ)) (hmid : List.Forall₂ (Grows svd) mid cs) (a b : String)
    (hab : a ≠ b) (v : List (V3 ℝ)) (closed : Bool) :
    let st := (CoordMgr.init : CoordMgr ℝ β).run inv svd (ops ++ [.tag a] ++ mid.map .transform ++ [.tag b])
    (b ∉ ownNames → b ≠ "points_or_mesh" →
      ∃ w, (st.setAttr a (.points (pts v))).1.getAttr ver b = .ok (.value (.points (pts w))) ∧
        (poly w closed).totalLength = (poly v closed).totalLength.map (fun l => (added cs).prod * l)) ∧
    (a ∉ ownNames → a ≠ "points_or_mesh" →
      ∃ w, (st.setAttr b (.points (pts v))).1.getAttr ver a = .ok (.value (.points (pts w))) ∧
        (poly w closed).totalLength = (poly v closed).totalLength.map (fun l => l / (added cs).prod)) := by
  intro st
  obtain ⟨f1, f2⟩ := C55_frames inv hinv svd ver ops hops mid (all_reversible hmid) a b hab v
  obtain ⟨-, ⟨w, hw, hl⟩, ⟨w', hw', hl'⟩⟩ := C137_lengths inv hinv svd mid cs hmid none v closed
  have hst : ∃ s : CoordMgr ℝ β, ∃ t : Composite ℝ, st = CoordMgr.tagAs { s.tagAs a with transform := t } b := by
    refine ⟨(CoordMgr.init : CoordMgr ℝ β).run inv svd ops,
      runT inv svd (CoordMgr.tagAs ((CoordMgr.init : CoordMgr ℝ β).run inv svd ops) a).transform mid, ?_⟩
    show (ops ++ [MOp.tag a] ++ mid.map MOp.transform ++ [MOp.tag b]).foldl (CoordMgr.step inv svd) CoordMgr.init = _
    rw [List.foldl_append, List.foldl_append, List.foldl_append]
    show CoordMgr.tagAs (CoordMgr.run inv svd (CoordMgr.tagAs ((CoordMgr.init : CoordMgr ℝ β).run inv svd ops) a) (mid.map .transform)) b = _
    rw [mrun_transforms]
  obtain ⟨s, t, hst⟩ := hst
  have ha : st.tags.contains a := by rw [hst]; simp [CoordMgr.tagAs, Dict.contains, Dict.get?_set, hab]
  have hb : st.tags.contains b := by rw [hst]; simp [CoordMgr.tagAs, Dict.contains, Dict.get?_set]
  constructor
  · intro h1 h2
    refine ⟨w, ?_, hl⟩
    rw [(C55_read ver st a (.points (pts v)) ha).2.2 b h1 h2]
    show (st.doTransform ver (.points (pts v)) a b).map Attr.value = _
    rw [f1, hw]; rfl
  · intro h1 h2
    refine ⟨w', ?_, hl'⟩
    rw [(C55_read ver st b (.points (pts v)) hb).2.2 a h1 h2]
    show (st.doTransform ver (.points (pts v)) b a).map Attr.value = _
    rw [f2, hw']; rfl

/-- **C137.** Where it stops: an explicit matrix that stretches one direction only has no factor; it doubles one edge and leaves
another. -/
theorem C137_stretch (inv : Mat 4 4 ℝ → PyM (Mat 4 4 ℝ)) (svd : Svd3 ℝ) (b : Mat 4 4 ℝ)
    (hb : inv !![2, 0, 0, 0; 0, 1, 0, 0; 0, 0, 1, 0; 0, 0, 0, 1] = .ok b) :
    let st := runT inv svd [] [.append4 !![2, 0, 0, 0; 0, 1, 0, 0; 0, 0, 1, 0; 0, 0, 0, 1] none]
    callT st (pts [⟨0, 0, 0⟩, ⟨1, 0, 0⟩, ⟨0, 1, 0⟩]) none false = .ok (pts [⟨0, 0, 0⟩, ⟨2, 0, 0⟩, ⟨0, 1, 0⟩]) ∧
    ∀ c, ¬ Similarity (affMap !![2, 0, 0, 0; 0, 1, 0, 0; 0, 0, 1, 0; 0, 0, 0, 1]) c := by
  intro st
  have hst : st = [(!![2, 0, 0, 0; 0, 1, 0, 0; 0, 0, 1, 0; 0, 0, 0, 1], b)] := by
    show (append4 inv [] _ none).1 = _
    unfold append4
    simp only [hb]
    rfl
  constructor
  · unfold callT
    rw [matrixFor_fwd, hst]
    simp only [selected, List.map_cons, List.map_nil, List.reverse_cons, List.reverse_nil, List.nil_append, List.prod_singleton]
    rw [applyMatrix_affine (by simp [Affine])]
    simp [affMap]
  · intro c hc
    have h1 := hc.dist ⟨0, 0, 0⟩ ⟨1, 0, 0⟩
    have h2 := hc.dist ⟨0, 0, 0⟩ ⟨0, 1, 0⟩
    simp [affMap, dist3, len3, vec3] at h1 h2
    have : (2 : ℝ) = 1 := h1.trans h2.symm
    norm_num at this


/-- **C137.** A case: a triangle in centimetres is moved, a scaling by −1 is refused, it is turned about the vertical, converted to
millimetres and made twice as large.  Its length
goes from 12 to 240, and with the conversion alone to 120. -/
theorem C137_witness (inv : Mat 4 4 ℝ → PyM (Mat 4 4 ℝ)) (hinv : InvSpec inv) (svd : Svd3 ℝ) :
    let ops : List (TOp ℝ) := [.translate ⟨1, 2, 3⟩, .scale (-1), .rotate (.vec ⟨0, 1, 0⟩), .convertUnits (some "cm") (some "mm"), .scale 2]
    ∃ cs, List.Forall₂ (Grows svd) ops cs ∧ added cs = [1, 1, 10, 2] ∧
      (∃ w, callT (runT inv svd [] ops) (pts [⟨0, 0, 0⟩, ⟨3, 0, 0⟩, ⟨3, 4, 0⟩]) none false = .ok (pts w) ∧
        (poly w true).totalLength = .ok 240) ∧
      (∃ w, callT (runT inv svd [] ops) (pts [⟨0, 0, 0⟩, ⟨3, 0, 0⟩, ⟨3, 4, 0⟩]) (some (some 2, some 3)) false = .ok (pts w) ∧
        (poly w true).totalLength = .ok 120) := by
  intro ops
  have hu : Grows svd (.convertUnits (some "cm") (some "mm")) (some 10) := by
    have h := Grows.units (svd := svd) (a := "cm") (b := "mm") (A := ⟨["cm", "centimeter", "centimeters"], "length", 0.01⟩)
      (B := ⟨["mm", "millimeter", "millimeters"], "length", 0.001⟩) (by simp [UnitIs, unitOf, unitDefs]) (by simp [UnitIs, unitOf, unitDefs]) rfl rfl
    have e : ((0.01 : ℝ) / 0.001) = 10 := by norm_num
    simpa only [e] using h
  have hall : List.Forall₂ (Grows svd) ops [some 1, none, some 1, some 10, some 2] :=
    .cons (.translate _) (.cons (.badScale (by norm_num)) (.cons (.rotateVec _) (.cons hu (.cons (.scale two_pos) .nil))))
  have hL : (poly [⟨0, 0, 0⟩, ⟨3, 0, 0⟩, ⟨3, 4, 0⟩] true).totalLength = .ok (12 : ℝ) := by
    rw [(C35_lengths _ _).2]
    congr 1
    have h5 : Real.sqrt (3 ^ 2 + 4 ^ 2) = 5 := by
      rw [show (3 ^ 2 + 4 ^ 2 : ℝ) = 5 ^ 2 by norm_num]; exact Real.sqrt_sq (by norm_num)
    simp [pathLength, circuit, Spec.pairs, dist3, len3, vec3, h5]
    norm_num
  refine ⟨_, hall, rfl, ?_, ?_⟩
  · obtain ⟨-, ⟨w, hw, hl⟩, -⟩ := C137_lengths inv hinv svd ops _ hall none [⟨0, 0, 0⟩, ⟨3, 0, 0⟩, ⟨3, 4, 0⟩] true
    refine ⟨w, hw, ?_⟩
    rw [hl, hL]
    simp [added, ranged, Except.map]
    norm_num
  · obtain ⟨-, ⟨w, hw, hl⟩, -⟩ := C137_lengths inv hinv svd ops _ hall (some (some 2, some 3)) [⟨0, 0, 0⟩, ⟨3, 0, 0⟩, ⟨3, 4, 0⟩] true
    refine ⟨w, hw, ?_⟩
    rw [hl, hL]
    simp [added, ranged, Except.map, pySlice, sliceBound]
    norm_num

end Blmath.Props
