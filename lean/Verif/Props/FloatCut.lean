import Verif.Props.FloatMesh
import Verif.Props.PolylineCut

/-!
Property C103: `Polyline.intersect_plane` and `Polyline.cut_by_plane` in rounded arithmetic.
-/

namespace Blmath.Props
open Blmath.Geometry Blmath.Spec Blmath.Proofs Blmath.Vx FS FM

namespace FP

/-! ### chains of vertices coloured front or back -/

section
variable {P : Type}

/-- the ends of the edge have different colours -/
def Changes (f : P → Bool) (s : P × P) : Prop := f s.1 ≠ f s.2

theorem same_from (f : P → Bool) : ∀ (ys : List P) (b : P), (∀ s ∈ pairs (b :: ys), ¬ Changes f s) → ∀ q ∈ b :: ys, f q = f b
  | [], b, _, q, hq => by rw [List.mem_singleton.mp hq]
  | y :: ys, b, h, q, hq => by
    have hb : f b = f y := by
      have := h (b, y) (by simp [pairs])
      unfold Changes at this
      simpa using this
    rcases List.mem_cons.mp hq with rfl | hq
    · rfl
    · rw [hb]
      exact same_from f ys y (fun s hs => h s (by simp [pairs, hs])) q hq

theorem same_to (f : P → Bool) (xs : List P) (a : P) (h : ∀ s ∈ pairs (xs ++ [a]), ¬ Changes f s) : ∀ q ∈ xs ++ [a], f q = f a := by
  have e : xs ++ [a] = (a :: xs.reverse).reverse := by simp
  rw [e, pairs_reverse] at h
  have := same_from f xs.reverse a (by
    intro s hs hm
    refine h s.swap ?_ (fun e => hm e.symm)
    rw [List.mem_reverse, List.mem_map]
    exact ⟨s, hs, rfl⟩)
  rw [e]
  simpa only [List.mem_reverse] using this

/-- a chain with one change of colour -/
theorem split_once (f : P → Bool) (v : List P) (i : ℕ) (s : P × P) (hs : (pairs v)[i]? = some s)
    (honly : ∀ j t, (pairs v)[j]? = some t → Changes f t → j = i) :
    ∃ xs ys, v = xs ++ s.1 :: s.2 :: ys ∧ xs.length = i ∧ v.take (i + 1) = xs ++ [s.1] ∧ v.drop (i + 1) = s.2 :: ys ∧
      (∀ t ∈ pairs (xs ++ [s.1]), ¬ Changes f t) ∧ (∀ t ∈ pairs (s.2 :: ys), ¬ Changes f t) ∧
      (∀ q ∈ v.take (i + 1), f q = f s.1) ∧ ∀ q ∈ v.drop (i + 1), f q = f s.2 := by
  obtain ⟨a, b⟩ := s
  obtain ⟨xs, ys, hv, hi⟩ := pairs_split v i (a, b) hs
  simp only at hv
  have hpairs : pairs v = pairs (xs ++ [a]) ++ (a, b) :: pairs (b :: ys) := by rw [hv, pairs_mid]
  have hPlen : (pairs (xs ++ [a])).length = i := by rw [pairs_length]; simp [hi]
  have hP : ∀ t ∈ pairs (xs ++ [a]), ¬ Changes f t := by
    intro t ht hmt
    obtain ⟨j, hj⟩ := List.mem_iff_getElem?.mp ht
    have hlt : j < (pairs (xs ++ [a])).length := by
      by_contra hc
      rw [List.getElem?_eq_none (by omega)] at hj
      cases hj
    have := honly j t (by rw [hpairs, List.getElem?_append_left hlt]; exact hj) hmt
    omega
  have hQ : ∀ t ∈ pairs (b :: ys), ¬ Changes f t := by
    intro t ht hmt
    obtain ⟨j, hj⟩ := List.mem_iff_getElem?.mp ht
    have := honly (i + 1 + j) t (by
      rw [hpairs, List.getElem?_append_right (by omega), hPlen,
        show i + 1 + j - i = j + 1 by omega, List.getElem?_cons_succ]
      exact hj) hmt
    omega
  have e : v = (xs ++ [a]) ++ (b :: ys) := by rw [hv]; simp
  have htake : v.take (i + 1) = xs ++ [a] := by
    rw [e, ← hi]
    exact List.take_left' (by simp)
  have hdrop : v.drop (i + 1) = b :: ys := by
    rw [e, ← hi]
    exact List.drop_left' (by simp)
  exact ⟨xs, ys, hv, hi, htake, hdrop, hP, hQ, by rw [htake]; exact same_to f xs a hP, by rw [hdrop]; exact same_from f ys b hQ⟩

theorem closed_getElem? (v : List P) (k : ℕ) (hk : k < v.length) :
    (chainSegs v true)[k]? = some (v[k], v[(k + 1) % v.length]'(Nat.mod_lt _ (by omega))) := by
  have he : (k, (k + 1) % v.length) ∈ chainEdges v.length true := by
    unfold chainEdges
    simp only [if_true, List.mem_map, List.mem_range]
    exact ⟨k, hk, rfl⟩
  obtain ⟨a, b, h1, h2, h3, h4⟩ := circuit_getElem? v true _ he
  have := pairs_getElem? _ _ _ _ h3 h4
  rw [List.getElem?_eq_getElem hk] at h1
  rw [List.getElem?_eq_getElem (Nat.mod_lt _ (by omega))] at h2
  injection h1 with h1
  injection h2 with h2
  rw [h1, h2]
  exact this

theorem segs_rotate (v : List P) (r : ℕ) : chainSegs (v.rotate r) true = (chainSegs v true).rotate r := by
  have hl := chainSegs_length v true
  have hl' := chainSegs_length (v.rotate r) true
  simp only [if_true, List.length_rotate] at hl hl'
  apply List.ext_getElem?
  intro k
  by_cases hk : k < v.length
  · have hmod : (k + r) % v.length < v.length := Nat.mod_lt _ (by omega)
    rw [closed_getElem? _ k (by simpa using hk), List.getElem?_rotate (by omega), hl,
      closed_getElem? v _ hmod]
    simp only [List.getElem_rotate, List.length_rotate]
    congr 2
    congr 1
    rw [Nat.mod_add_mod, Nat.mod_add_mod]
    congr 1
    ring
  · rw [List.getElem?_eq_none (by omega), List.getElem?_eq_none (by rw [List.length_rotate]; omega)]

theorem segs_closed (w : List P) (a b : P) (ha : w.head? = some a) (hb : w.getLast? = some b) :
    chainSegs w true = pairs w ++ [(b, a)] := by
  have hne : w ≠ [] := by rintro rfl; simp at ha
  have e : w = w.dropLast ++ [b] := by
    rw [List.getLast?_eq_some_getLast hne] at hb
    injection hb with hb
    rw [← hb, List.dropLast_append_getLast hne]
  unfold chainSegs circuit
  simp only [if_true, ha, Option.toList_some]
  rw [e, List.append_assoc]
  exact pairs_append_cons _ _ _

/-- where the front part of a closed chain begins, as computed from the colours -/
def start (f : P → Bool) (v : List P) : PyM ℕ :=
  match v with
  | [] => raise .IndexError
  | v0 :: _ => if f v0 = false then pyIndex (Plane.flatnonzero (v.map f)) 0
      else do
        let i ← pyIndex (Plane.flatnonzero (v.map fun q => !f q)) (-1)
        pure (i + 1)

theorem start_spec (f : P → Bool) (v : List P) (hf : ∃ q ∈ v, f q = true) (hb : ∃ q ∈ v, f q = false) :
    ∃ r, r ≤ v.length ∧ start f v = .ok r ∧
      ∃ a b, (v.rotate r).head? = some a ∧ f a = true ∧ (v.rotate r).getLast? = some b ∧ f b = false := by
  obtain ⟨qf, hqf, hf⟩ := hf
  obtain ⟨qb, hqb, hb⟩ := hb
  obtain ⟨jf, hjf⟩ := List.mem_iff_getElem?.mp hqf
  obtain ⟨jb, hjb⟩ := List.mem_iff_getElem?.mp hqb
  have hpos : 0 < v.length := by
    rcases v with _ | ⟨x, v⟩
    · simp at hqf
    · simp
  have hrot : ∀ r a b, r ≤ v.length → v[r % v.length]? = some a → v[(v.length - 1 + r) % v.length]? = some b →
      (v.rotate r).head? = some a ∧ (v.rotate r).getLast? = some b := by
    intro r a b hr ha hb
    rw [List.head?_eq_getElem?, List.getLast?_eq_getElem?, List.length_rotate,
      List.getElem?_rotate hpos, List.getElem?_rotate (by omega), Nat.zero_add]
    exact ⟨ha, hb⟩
  have mask : ∀ (g : P → Bool) (k : ℕ), (v.map g)[k]? = some true ↔ ∃ q, v[k]? = some q ∧ g q = true := by
    intro g k
    rw [List.getElem?_map, Option.map_eq_some_iff]
  cases v with
  | nil => simp at hpos
  | cons v0 vs =>
    unfold start
    simp only
    by_cases h0 : f v0 = false
    · rw [if_pos h0]
      obtain ⟨k, h1, h2, h3⟩ := first_true ((v0 :: vs).map f) (List.mem_iff_getElem?.mpr ⟨jf, (mask f _).mpr ⟨qf, hjf, hf⟩⟩)
      obtain ⟨a, ha, hha⟩ := (mask f _).mp h2
      have hklt : k < (v0 :: vs).length := by
        by_contra hc
        rw [List.getElem?_eq_none (by omega)] at ha; cases ha
      have hk1 : 1 ≤ k := by
        by_contra hc
        have : k = 0 := by omega
        subst this
        simp only [List.getElem?_cons_zero, Option.some.injEq] at ha
        rw [← ha, h0] at hha
        cases hha
      have hb' : k - 1 < (v0 :: vs).length := by omega
      have hneg : f ((v0 :: vs)[k - 1]) = false := by
        by_contra hc
        exact h3 (k - 1) (by omega) ((mask f _).mpr ⟨_, List.getElem?_eq_getElem hb', by simpa using hc⟩)
      obtain ⟨e1, e2⟩ := hrot k a ((v0 :: vs)[k - 1]) hklt.le
        (by rw [Nat.mod_eq_of_lt hklt]; exact ha)
        (by
          rw [show (v0 :: vs).length - 1 + k = (k - 1) + (v0 :: vs).length by omega, Nat.add_mod_right,
            Nat.mod_eq_of_lt hb']
          exact List.getElem?_eq_getElem hb')
      exact ⟨k, hklt.le, h1, a, _, e1, hha, e2, hneg⟩
    · rw [if_neg h0]
      obtain ⟨k, h1, h2, h3⟩ := last_true ((v0 :: vs).map fun q => !f q)
        (List.mem_iff_getElem?.mpr ⟨jb, (mask _ _).mpr ⟨qb, hjb, by simp [hb]⟩⟩)
      obtain ⟨b, hb1, hhb⟩ := (mask _ _).mp h2
      have hklt : k < (v0 :: vs).length := by
        by_contra hc
        rw [List.getElem?_eq_none (by omega)] at hb1; cases hb1
      have hex : ∃ a, (v0 :: vs)[(k + 1) % (v0 :: vs).length]? = some a ∧ f a = true := by
        by_cases hk : k + 1 = (v0 :: vs).length
        · rw [hk, Nat.mod_self]
          exact ⟨v0, rfl, by simpa using h0⟩
        · have hlt : k + 1 < (v0 :: vs).length := by omega
          rw [Nat.mod_eq_of_lt hlt]
          refine ⟨_, List.getElem?_eq_getElem hlt, ?_⟩
          by_contra hc
          exact h3 (k + 1) (by omega) ((mask _ _).mpr ⟨_, List.getElem?_eq_getElem hlt, by simpa using hc⟩)
      obtain ⟨a, ha, hha⟩ := hex
      obtain ⟨e1, e2⟩ := hrot (k + 1) a b (by omega) ha
        (by
          rw [show (v0 :: vs).length - 1 + (k + 1) = k + (v0 :: vs).length by omega, Nat.add_mod_right,
            Nat.mod_eq_of_lt hklt]
          exact hb1)
      refine ⟨k + 1, by omega, ?_, a, b, e1, hha, e2, by simpa using hhb⟩
      rw [h1]
      rfl

/-- a closed chain with two changes of colour, read from the start of its front part -/
theorem split_closed (f : P → Bool) (v : List P)
    (hcount : (chainSegs v true).countP (fun s => f s.1 != f s.2) = 2) :
    ∃ r F B f0 f1 b0 b1, r ≤ v.length ∧ start f v = .ok r ∧ v.rotate r = F ++ B ∧
      (∀ q ∈ F, f q = true) ∧ (∀ q ∈ B, f q = false) ∧
      F.head? = some f0 ∧ F.getLast? = some f1 ∧ B.head? = some b0 ∧ B.getLast? = some b1 ∧
      pyIndex (chainSegs (F ++ B) true) (-1) = .ok (b1, f0) ∧
      pyIndex (chainSegs (F ++ B) true) ((F.length : ℤ) - 1) = .ok (f1, b0) := by
  have hmixed : ∃ s ∈ chainSegs v true, f s.1 ≠ f s.2 := by
    have : 0 < (chainSegs v true).countP (fun s => f s.1 != f s.2) := by omega
    obtain ⟨s, hs, h⟩ := List.countP_pos_iff.mp this
    exact ⟨s, hs, by simpa using h⟩
  have hmem : ∀ s ∈ chainSegs v true, s.1 ∈ v ∧ s.2 ∈ v := by
    intro s hs
    obtain ⟨k, hk⟩ := List.mem_iff_getElem?.mp hs
    have hlen := chainSegs_length v true
    simp only [if_true] at hlen
    have hkl : k < v.length := by
      by_contra hc
      rw [List.getElem?_eq_none (by omega)] at hk; cases hk
    rw [closed_getElem? v k hkl] at hk
    injection hk with hk
    rw [← hk]
    exact ⟨List.getElem_mem _, List.getElem_mem _⟩
  obtain ⟨s0, hs0, hne0⟩ := hmixed
  obtain ⟨hm1, hm2⟩ := hmem s0 hs0
  have hex : (∃ q ∈ v, f q = true) ∧ ∃ q ∈ v, f q = false := by
    cases e1 : f s0.1 <;> cases e2 : f s0.2
    · rw [e1, e2] at hne0; exact absurd rfl hne0
    · exact ⟨⟨_, hm2, e2⟩, ⟨_, hm1, e1⟩⟩
    · exact ⟨⟨_, hm1, e1⟩, ⟨_, hm2, e2⟩⟩
    · rw [e1, e2] at hne0; exact absurd rfl hne0
  obtain ⟨r, hr, hstart, f0, b1, hw0, hf0, hw1, hb1⟩ := start_spec f v hex.1 hex.2
  obtain ⟨w, hw⟩ : ∃ w, w = v.rotate r := ⟨_, rfl⟩
  rw [← hw] at hw0 hw1
  have hsegs := segs_closed w f0 b1 hw0 hw1
  have hcw : (chainSegs w true).countP (fun s => f s.1 != f s.2) = 2 := by
    rw [hw, segs_rotate, (List.rotate_perm _ r).countP_eq]
    exact hcount
  have hone : (pairs w).countP (fun s => f s.1 != f s.2) = 1 := by
    rw [hsegs, List.countP_append, List.countP_singleton, if_pos (by simp [hf0, hb1])] at hcw
    omega
  have hpos : 0 < (pairs w).countP (fun s => f s.1 != f s.2) := by omega
  obtain ⟨s, hs, hms⟩ := List.countP_pos_iff.mp hpos
  obtain ⟨Pr, Q, hPQ⟩ := List.append_of_mem hs
  rw [hPQ, List.countP_append, List.countP_cons, if_pos hms] at hone
  have hP : ∀ t ∈ Pr, ¬ Changes f t := by
    have : Pr.countP (fun s => f s.1 != f s.2) = 0 := by omega
    rw [List.countP_eq_zero] at this
    intro t ht hc
    exact this t ht (by simpa [Changes] using hc)
  have hQ : ∀ t ∈ Q, ¬ Changes f t := by
    have : Q.countP (fun s => f s.1 != f s.2) = 0 := by omega
    rw [List.countP_eq_zero] at this
    intro t ht hc
    exact this t ht (by simpa [Changes] using hc)
  have hi : (pairs w)[Pr.length]? = some s := by rw [hPQ]; simp
  obtain ⟨xs, ys, hsplit, hxl, htake, hdrop, hP', hQ', hsame1, hsame2⟩ := split_once f w Pr.length s hi (by
    intro j t ht hc
    rw [hPQ] at ht
    by_contra hne
    rcases Nat.lt_or_ge j Pr.length with h1 | h1
    · rw [List.getElem?_append_left h1] at ht
      exact hP t (List.mem_of_getElem? ht) hc
    · rw [List.getElem?_append_right h1, show j - Pr.length = (j - Pr.length - 1) + 1 by omega, List.getElem?_cons_succ] at ht
      exact hQ t (List.mem_of_getElem? ht) hc)
  obtain ⟨a, b⟩ := s
  simp only at hsplit htake hdrop hP' hQ' hsame1 hsame2
  rw [htake] at hsame1
  rw [hdrop] at hsame2
  have hFhead : (xs ++ [a]).head? = some f0 := by
    rw [hsplit] at hw0
    cases xs with
    | nil => simpa using hw0
    | cons x xs => simpa using hw0
  have hlast : (b :: ys).getLast? = some b1 := by
    rw [hsplit] at hw1
    rw [show xs ++ a :: b :: ys = (xs ++ [a]) ++ (b :: ys) by simp, List.getLast?_append] at hw1
    cases hl : (b :: ys).getLast? with
    | none => simp at hl
    | some z => rw [hl] at hw1; simpa using hw1
  have hfa : f a = true := by
    rw [← hsame1 f0 (List.mem_of_mem_head? hFhead)]; exact hf0
  have hfb : f b = false := by
    rw [← hsame2 b1 (List.mem_of_mem_getLast? hlast)]; exact hb1
  have hwe : w = (xs ++ [a]) ++ (b :: ys) := by rw [hsplit]; simp
  refine ⟨r, xs ++ [a], b :: ys, f0, a, b, b1, hr, hstart, by rw [← hw, hwe], ?_, ?_, hFhead, by simp, rfl, hlast, ?_, ?_⟩
  · intro q hq; rw [hsame1 q hq, hfa]
  · intro q hq; rw [hsame2 q hq, hfb]
  · rw [← hwe, hsegs]; exact pyIndex_concat _ _
  · rw [← hwe, hsegs]
    have e : (((xs ++ [a]).length : ℤ) - 1) = ((xs.length : ℕ) : ℤ) := by simp
    rw [e]
    apply pyIndex_of_getElem?
    rw [hxl, List.getElem?_append_left (by rw [hPQ]; simp)]
    exact hi

end

/-! ### signs and edges in rounded arithmetic -/

variable {rnd : ℝ → ℝ} {u : ℝ}

/-- the vertex is in front of the plane -/
noncomputable def front (pl : Plane (Rd rnd)) (q : V3 (Rd rnd)) : Bool := decide (0 < height (exactPlane pl) (Rd.vec q))

theorem front_iff (pl : Plane (Rd rnd)) (q : V3 (Rd rnd)) : front pl q = true ↔ 0 < height (exactPlane pl) (Rd.vec q) := by
  simp [front]

theorem back_iff (hu0 : 0 < u) {M : ℝ} (hM : 0 < M) {pl : Plane (Rd rnd)} {q : V3 (Rd rnd)} (hq : Good u M pl q) :
    front pl q = false ↔ height (exactPlane pl) (Rd.vec q) < 0 := by
  have hc := hq.clear
  unfold Clear at hc
  have hU := mul_pos hu0 hM
  have hne : height (exactPlane pl) (Rd.vec q) ≠ 0 := abs_pos.mp (by linarith)
  simp only [front, decide_eq_false_iff_not, not_lt]
  exact ⟨fun h => lt_of_le_of_ne h hne, fun h => h.le⟩

theorem changes_iff (hu0 : 0 < u) {M : ℝ} (hM : 0 < M) {pl : Plane (Rd rnd)} {a b : V3 (Rd rnd)} (ha : Good u M pl a) (hb : Good u M pl b) :
    (front pl a != front pl b) = true ↔ height (exactPlane pl) (Rd.vec a) * height (exactPlane pl) (Rd.vec b) < 0 := by
  have ka := back_iff hu0 hM ha
  have kb := back_iff hu0 hM hb
  have fa := front_iff pl a
  have fb := front_iff pl b
  rw [mul_neg_iff]
  cases ea : front pl a <;> cases eb : front pl b <;> simp only [ea, eb, true_iff, Bool.false_eq_true, Bool.true_eq_false, false_iff] at *
  · simp [fa, fb]
  · simp [ka, fb]
  · simp [fa, kb]
  · simp [ka, kb]

theorem new_rd (v : List (V3 (Rd rnd))) (closed : Bool) (h : closed = true → v ≠ []) :
    Polyline.new (rowsOf v) closed = .ok (poly v closed) := by
  unfold Polyline.new
  rw [setV_ok _ _ v (asPoints_rowsOf v ?_) h]
  intro p _ x _
  have e : ∀ y : Rd rnd, npIsNan y = false := fun y => by
    unfold npIsNan
    rw [(Rd.eq_iff y y).mpr rfl]
    rfl
  simp [npIsInf, e]

theorem lit0 (h : Rounding rnd u) : (Num.lit 0 : Rd rnd).val = 0 := by rw [Rd.val_lit]; push_cast; exact h.zero

theorem lit1 (h : Rounding rnd u) : (Num.lit 1 : Rd rnd).val = 1 := by rw [Rd.val_lit]; push_cast; exact h.one

theorem litm1 (h : Rounding rnd u) : (Num.lit (-1) : Rd rnd).val = -1 := by
  rw [Rd.val_lit]; push_cast; simpa using h.int (-1) (by norm_num)

theorem lit2 (h : Rounding rnd u) : (Num.lit 2 : Rd rnd).val = 2 := by
  rw [Rd.val_lit]; push_cast; simpa using h.int 2 (by norm_num)

theorem signs (h : Rounding rnd u) (hu0 : 0 < u) (hu : u ≤ 1 / 1000) {M : ℝ} (hM : 0 < M) (pl : Plane (Rd rnd)) (p : V3 (Rd rnd))
    (hr : Within M (Rd.vec pl.r0)) (hn : Within (5 / 4) (Rd.vec pl.n)) (hp : Good u M pl p) :
    Num.le (Num.lit 0) (npSign (pl.signedDistance1 p)) = front pl p ∧ Num.lt (npSign (pl.signedDistance1 p)) (Num.lit 0) = !front pl p ∧
    Num.eq (npSign (pl.signedDistance1 p)) (Num.lit (-1)) = !front pl p ∧ Num.eq (npSign (pl.signedDistance1 p)) (Num.lit 0) = false := by
  have hs := sign_good h hu0 hu hM pl p hr hn hp
  have z := lit0 h
  have m := litm1 h
  generalize npSign (pl.signedDistance1 p) = s at *
  unfold front
  by_cases hc : 0 < height (exactPlane pl) (Rd.vec p)
  · rw [if_pos hc] at hs
    simp only [hc, decide_true, Bool.not_true]
    refine ⟨?_, ?_, ?_, ?_⟩
    · rw [Rd.le_iff, hs, z]; norm_num
    · rw [Bool.eq_false_iff, ne_eq, Rd.lt_iff, hs, z]; norm_num
    · rw [Bool.eq_false_iff, ne_eq, Rd.eq_iff, hs, m]; norm_num
    · rw [Bool.eq_false_iff, ne_eq, Rd.eq_iff, hs, z]; norm_num
  · rw [if_neg hc] at hs
    simp only [hc, decide_false, Bool.not_false]
    refine ⟨?_, ?_, ?_, ?_⟩
    · rw [Bool.eq_false_iff, ne_eq, Rd.le_iff, hs, z]; norm_num
    · rw [Rd.lt_iff, hs, z]; norm_num
    · rw [Rd.eq_iff, hs, m]
    · rw [Bool.eq_false_iff, ne_eq, Rd.eq_iff, hs, z]; norm_num

theorem meets (h : Rounding rnd u) (hu0 : 0 < u) (hu : u ≤ 1 / 1000) {M : ℝ} (hM : 0 < M) (pl : Plane (Rd rnd)) (a b : V3 (Rd rnd))
    (hr : Within M (Rd.vec pl.r0)) (hn : Within (5 / 4) (Rd.vec pl.n)) (ha : Good u M pl a) (hb : Good u M pl b) :
    Polyline.edgeMeets pl (a, b) = (front pl a != front pl b) := by
  have h1 := sign_good h hu0 hu hM pl a hr hn ha
  have h2 := sign_good h hu0 hu hM pl b hr hn hb
  have z := lit0 h
  have t := lit2 h
  have two : rnd 2 = 2 := by simpa using h.int 2 (by norm_num)
  have mtwo : rnd (-2) = -2 := by simpa using h.int (-2) (by norm_num)
  unfold Polyline.edgeMeets
  simp only
  generalize npSign (pl.signedDistance1 a) = s at *
  generalize npSign (pl.signedDistance1 b) = s' at *
  have hsum : (s + s').val = rnd (s.val + s'.val) := rfl
  unfold front npAbs
  simp only [Bool.not_eq_eq_eq_not]
  by_cases c1 : 0 < height (exactPlane pl) (Rd.vec a) <;> by_cases c2 : 0 < height (exactPlane pl) (Rd.vec b)
  · rw [if_pos c1] at h1; rw [if_pos c2] at h2
    rw [h1, h2, show (1 : ℝ) + 1 = 2 by norm_num, two] at hsum
    simp only [c1, c2, decide_true, bne_self_eq_false, Bool.not_false]
    rw [if_neg (by rw [Rd.lt_iff, hsum, z]; norm_num), Rd.eq_iff, hsum, t]
  · rw [if_pos c1] at h1; rw [if_neg c2] at h2
    rw [h1, h2, show (1 : ℝ) + -1 = 0 by norm_num, h.zero] at hsum
    simp only [c1, c2, decide_true, decide_false]
    rw [if_neg (by rw [Rd.lt_iff, hsum, z]; norm_num)]
    simp only [bne, Bool.not_not, beq_iff_eq]
    rw [Bool.eq_iff_iff, Rd.eq_iff, hsum, t]; simp
  · rw [if_neg c1] at h1; rw [if_pos c2] at h2
    rw [h1, h2, show (-1 : ℝ) + 1 = 0 by norm_num, h.zero] at hsum
    simp only [c1, c2, decide_true, decide_false]
    rw [if_neg (by rw [Rd.lt_iff, hsum, z]; norm_num)]
    rw [Bool.eq_iff_iff, Rd.eq_iff, hsum, t]; simp
  · rw [if_neg c1] at h1; rw [if_neg c2] at h2
    rw [h1, h2, show (-1 : ℝ) + -1 = -2 by norm_num, mtwo] at hsum
    simp only [c1, c2, decide_false, bne_self_eq_false, Bool.not_false]
    rw [if_pos (by rw [Rd.lt_iff, hsum, z]; norm_num), Rd.eq_iff, Rd.val_neg, hsum, t]; norm_num

/-- the computed distance -/
theorem dist_good (h : Rounding rnd u) (hu0 : 0 < u) (hu : u ≤ 1 / 1000) {M : ℝ} (hM : 0 < M) (pl : Plane (Rd rnd)) (p : V3 (Rd rnd))
    (hr : Within M (Rd.vec pl.r0)) (hn : Within (5 / 4) (Rd.vec pl.n)) (hp : Within M (Rd.vec p)) :
    |(npAbs (pl.signedDistance1 p)).val - (|height (exactPlane pl) (Rd.vec p)|)| ≤ 31 * (u * M) := by
  have h1 := C81_distance h (by linarith) pl p
  have h2 := termSize_le (pl := exactPlane pl) hp hr hn
  have h3 : gam u 4 * termSize (exactPlane pl) (Rd.vec p) ≤ 402 / 100 * u * (15 / 2 * M) := by
    have : 0 ≤ termSize (exactPlane pl) (Rd.vec p) := by unfold termSize; positivity
    have := gam_four h hu
    gcongr
  have h4 : (npAbs (pl.signedDistance1 p)).val = |(pl.signedDistance1 p).val| := by
    unfold npAbs
    split
    · rename_i hc; rw [Rd.lt_iff, lit0 h] at hc; rw [Rd.val_neg, abs_of_neg hc]
    · rename_i hc; rw [Rd.lt_iff, lit0 h] at hc; rw [abs_of_nonneg (not_lt.mp hc)]
  rw [h4]
  have hU := mul_pos hu0 hM
  exact (abs_abs_sub_abs_le_abs_sub _ _).trans (by linarith)

/-- a weight: the computed `1 - d/(d + e)` against the exact one -/
theorem weight (h : Rounding rnd u) (hu : u ≤ 1 / 1000) {d e : ℝ} (hd : 0 < d) (he : 0 < e) :
    |rnd (1 - rnd (d / rnd (d + e))) - e / (d + e)| ≤ 201 / 100 * u * (d / (d + e)) + u * (e / (d + e)) := by
  have h0 := h.nonneg
  have hs : 0 < d + e := by linarith
  obtain ⟨t1, k1, e1⟩ := h.factor (d + e)
  obtain ⟨t2, k2, e2⟩ := h.factor (d / rnd (d + e))
  obtain ⟨τ, hτ⟩ : ∃ τ, τ = d / (d + e) := ⟨_, rfl⟩
  have hτ0 : 0 ≤ τ := by rw [hτ]; positivity
  have hρ : e / (d + e) = 1 - τ := by rw [hτ]; field_simp; ring
  have hρ0 : 0 ≤ 1 - τ := by rw [← hρ]; positivity
  have et : rnd (d / rnd (d + e)) = τ * (t1⁻¹ * t2) := by
    rw [e2, e1, hτ, ← div_div, div_eq_mul_inv _ t1]; ring
  have f := factor_err (x := τ) (k := 2) h (by push_cast; linarith) ((k1.inv h.lt_one).mul h.lt_one k2)
  rw [← et, abs_of_nonneg hτ0] at f
  have hg : gam u 2 ≤ 2005 / 1000 * u := by
    unfold gam
    rw [div_le_iff₀ (by push_cast; linarith)]
    push_cast
    nlinarith
  have f' : |rnd (d / rnd (d + e)) - τ| ≤ 2005 / 1000 * u * τ := f.trans (by gcongr)
  rw [hρ, ← hτ]
  generalize rnd (d / rnd (d + e)) = t at *
  have g := h.err (1 - t)
  have a1 : |1 - t| ≤ (1 - τ) + 2005 / 1000 * u * τ := by
    rw [abs_le] at f' ⊢
    constructor <;> linarith [f'.1, f'.2]
  have g' : |rnd (1 - t) - (1 - t)| ≤ u * (1 - τ) + 21 / 10000 * u * τ := by
    refine g.trans ?_
    have : u * (2005 / 1000 * u * τ) ≤ u * (2005 / 1000 * (1 / 1000) * τ) := by gcongr
    have : u * |1 - t| ≤ u * ((1 - τ) + 2005 / 1000 * u * τ) := by gcongr
    have : 0 ≤ u * τ := by positivity
    linarith
  have : 0 ≤ u * τ := by positivity
  rw [abs_le] at *
  constructor <;> linarith [f'.1, f'.2, g'.1, g'.2]

/-- one coordinate of the weighted average -/
theorem coordinate (h : Rounding rnd u) (hu : u ≤ 1 / 1000) {M a b w0 w1 ρ τ : ℝ} (ha : |a| ≤ M) (hb : |b| ≤ M)
    (hτ : 0 ≤ τ) (hρ : 0 ≤ ρ) (hsum : ρ + τ = 1) (h0 : |w0 - ρ| ≤ 201 / 100 * u * τ + u * ρ) (h1 : |w1 - τ| ≤ 201 / 100 * u * ρ + u * τ) :
    |rnd (rnd (w0 * a) + rnd (w1 * b)) - (a + τ * (b - a))| ≤ 6 * (u * M) := by
  have hu0 := h.nonneg
  have hM : 0 ≤ M := (abs_nonneg _).trans ha
  have hU : 0 ≤ u * M := mul_nonneg hu0 hM
  have uu : u * (u * M) ≤ 1 / 1000 * (u * M) := by gcongr
  -- the total of the weights' errors
  have W0 : |(w0 - ρ) * a| ≤ (201 / 100 * u * τ + u * ρ) * M := by rw [abs_mul]; gcongr
  have W1 : |(w1 - τ) * b| ≤ (201 / 100 * u * ρ + u * τ) * M := by rw [abs_mul]; gcongr
  have R0 : |ρ * a| ≤ ρ * M := by rw [abs_mul, abs_of_nonneg hρ]; gcongr
  have R1 : |τ * b| ≤ τ * M := by rw [abs_mul, abs_of_nonneg hτ]; gcongr
  have esum : (201 / 100 * u * τ + u * ρ) * M + (201 / 100 * u * ρ + u * τ) * M = 301 / 100 * (u * M) := by
    rw [show ρ = 1 - τ by linarith]; ring
  have esum' : ρ * M + τ * M = M := by rw [← add_mul, hsum, one_mul]
  obtain ⟨x, hx⟩ : ∃ x, x = w0 * a := ⟨_, rfl⟩
  obtain ⟨y, hy⟩ : ∃ y, y = w1 * b := ⟨_, rfl⟩
  have ex : x = ρ * a + (w0 - ρ) * a := by rw [hx]; ring
  have ey : y = τ * b + (w1 - τ) * b := by rw [hy]; ring
  have hxy : |x| + |y| ≤ M + 301 / 100 * (u * M) := by
    have := abs_add_le (ρ * a) ((w0 - ρ) * a)
    have := abs_add_le (τ * b) ((w1 - τ) * b)
    rw [ex, ey]
    linarith
  rw [← hx, ← hy]
  have g0 := h.err x
  have g1 := h.err y
  have g2 := h.err (rnd x + rnd y)
  have k0 := abs_rnd_le h x
  have k1 := abs_rnd_le h y
  have k2 : |rnd x + rnd y| ≤ (1 + u) * (M + 301 / 100 * (u * M)) := by
    calc |rnd x + rnd y| ≤ |rnd x| + |rnd y| := abs_add_le _ _
      _ ≤ (1 + u) * |x| + (1 + u) * |y| := by linarith
      _ = (1 + u) * (|x| + |y|) := by ring
      _ ≤ _ := by gcongr
  have k3 : u * |rnd x + rnd y| ≤ 102 / 100 * (u * M) := by
    have c1 : u * ((1 + u) * (M + 301 / 100 * (u * M))) = u * M + u * (u * M) + 301 / 100 * (u * (u * M)) + 301 / 100 * (u * (u * (u * M))) := by ring
    have c2 : u * (u * (u * M)) ≤ 1 / 1000 * (u * (u * M)) := by gcongr
    have c3 : u * |rnd x + rnd y| ≤ u * ((1 + u) * (M + 301 / 100 * (u * M))) := by gcongr
    linarith
  have k4 : u * |x| + u * |y| ≤ 102 / 100 * (u * M) := by
    have : u * (|x| + |y|) ≤ u * (M + 301 / 100 * (u * M)) := by gcongr
    linarith
  have e : rnd (rnd x + rnd y) - (a + τ * (b - a)) =
      (rnd (rnd x + rnd y) - (rnd x + rnd y)) + (rnd x - x) + (rnd y - y) + (w0 - ρ) * a + (w1 - τ) * b := by
    rw [hx, hy, show a + τ * (b - a) = ρ * a + τ * b by rw [show ρ = 1 - τ by linarith]; ring]
    ring
  rw [e]
  rw [abs_le] at *
  constructor <;> linarith [g0.1, g0.2, g1.1, g1.2, g2.1, g2.2, W0.1, W0.2, W1.1, W1.2]

/-- the direction test of the cut: the sign of the component of the edge along the normal -/
theorem direction (h : Rounding rnd u) (hu0 : 0 < u) (hu : u ≤ 1 / 1000) {M : ℝ} (hM : 0 < M) (pl : Plane (Rd rnd)) (a b : V3 (Rd rnd))
    (hn : Within (5 / 4) (Rd.vec pl.n)) (ha : Within M (Rd.vec a)) (hb : Within M (Rd.vec b))
    (hd : 200 * (u * M) ≤ |height (exactPlane pl) (Rd.vec b) - height (exactPlane pl) (Rd.vec a)|) :
    Num.lt (Num.lit 0) (V3.dot (b - a) (normalize3 pl.n)) = true ↔
      height (exactPlane pl) (Rd.vec a) < height (exactPlane pl) (Rd.vec b) := by
  have hU := mul_pos hu0 hM
  obtain ⟨D, hD⟩ : ∃ D, D = height (exactPlane pl) (Rd.vec b) - height (exactPlane pl) (Rd.vec a) := ⟨_, rfl⟩
  rw [← hD] at hd
  have eD : D = (b.x.val - a.x.val) * pl.n.x.val + (b.y.val - a.y.val) * pl.n.y.val + (b.z.val - a.z.val) * pl.n.z.val := by
    rw [hD]; simp only [height, inner3, vec3, exactPlane, Rd.vec_x, Rd.vec_y, Rd.vec_z]; ring
  have hv : Rd.vec pl.n ≠ zero3 := by
    intro h0
    have h1 : pl.n.x.val = 0 := congrArg V3.x h0
    have h2 : pl.n.y.val = 0 := congrArg V3.y h0
    have h3 : pl.n.z.val = 0 := congrArg V3.z h0
    rw [h1, h2, h3] at eD
    rw [eD] at hd
    simp only [mul_zero, add_zero, abs_zero] at hd
    linarith
  have hL := len3_pos hv
  obtain ⟨L, eL⟩ : ∃ L, L = len3 (Rd.vec pl.n) := ⟨_, rfl⟩
  have hsq := len3_sq (Rd.vec pl.n)
  rw [← eL] at hL hsq
  simp only [Rd.vec_x, Rd.vec_y, Rd.vec_z] at hsq
  have sq_le : ∀ x : ℝ, |x| ≤ 5 / 4 → x ^ 2 ≤ 25 / 16 := by
    intro x hx
    rw [← sq_abs]
    nlinarith [abs_nonneg x]
  have hL2 : L ≤ 9 / 4 := by
    have b1 := sq_le _ hn.1
    have b2 := sq_le _ hn.2.1
    have b3 := sq_le _ hn.2.2
    simp only [Rd.vec_x, Rd.vec_y, Rd.vec_z] at b1 b2 b3
    nlinarith
  obtain ⟨c1, c2, c3⟩ := C80_components h (by linarith) pl.n hv
  rw [← eL] at c1 c2 c3
  have one_le : ∀ x : ℝ, x ^ 2 ≤ L ^ 2 → |x / L| ≤ 1 := by
    intro x hx
    rw [abs_div, abs_of_pos hL, div_le_one hL]
    exact abs_le_of_sq_le_sq hx hL.le
  have o1 := one_le pl.n.x.val (by nlinarith [sq_nonneg pl.n.y.val, sq_nonneg pl.n.z.val])
  have o2 := one_le pl.n.y.val (by nlinarith [sq_nonneg pl.n.x.val, sq_nonneg pl.n.z.val])
  have o3 := one_le pl.n.z.val (by nlinarith [sq_nonneg pl.n.x.val, sq_nonneg pl.n.y.val])
  have hg := gam_four h hu
  have err : ∀ x y : ℝ, |y - x / L| ≤ gam u 4 * |x / L| → |x / L| ≤ 1 → |y - x / L| ≤ 402 / 100 * u := by
    intro x y h1 h2
    calc _ ≤ gam u 4 * |x / L| := h1
      _ ≤ 402 / 100 * u * 1 := by gcongr
      _ = _ := by ring
  have r1 := err _ _ c1 o1
  have r2 := err _ _ c2 o2
  have r3 := err _ _ c3 o3
  have small : ∀ x y : ℝ, |y - x / L| ≤ 402 / 100 * u → |x / L| ≤ 1 → |y| ≤ 5 / 4 := by
    intro x y h1 h2
    rw [abs_le] at *
    constructor <;> linarith [h1.1, h1.2, h2.1, h2.2]
  have hn' : Within (5 / 4) (Rd.vec (normalize3 pl.n)) := ⟨small _ _ r1 o1, small _ _ r2 o2, small _ _ r3 o3⟩
  have dd := diff_dot h hu a b (normalize3 pl.n) ha hb hn'
  simp only [inner3, vec3, Rd.vec_x, Rd.vec_y, Rd.vec_z] at dd
  have key : ∀ p q x y : ℝ, |p| ≤ M → |q| ≤ M → |y - x / L| ≤ 402 / 100 * u → |(q - p) * (y - x / L)| ≤ 9 * (u * M) := by
    intro p q x y hp hq hy
    have : |q - p| ≤ 2 * M := by have := abs_sub q p; linarith
    rw [abs_mul]
    calc _ ≤ 2 * M * (402 / 100 * u) := by gcongr
      _ = 804 / 100 * (u * M) := by ring
      _ ≤ _ := by linarith
  have k1 := key _ _ _ _ ha.1 hb.1 r1
  have k2 := key _ _ _ _ ha.2.1 hb.2.1 r2
  have k3 := key _ _ _ _ ha.2.2 hb.2.2 r3
  simp only [Rd.vec_x, Rd.vec_y, Rd.vec_z] at k1 k2 k3
  have eDL : D / L = (b.x.val - a.x.val) * (pl.n.x.val / L) + (b.y.val - a.y.val) * (pl.n.y.val / L) + (b.z.val - a.z.val) * (pl.n.z.val / L) := by
    rw [eD]; ring
  have tot : |(V3.dot (b - a) (normalize3 pl.n)).val - D / L| ≤ 58 * (u * M) := by
    rw [eDL]
    rw [abs_le] at *
    constructor <;> linarith [dd.1, dd.2, k1.1, k1.2, k2.1, k2.2, k3.1, k3.2]
  have big : 80 * (u * M) ≤ |D / L| := by
    rw [abs_div, abs_of_pos hL, le_div_iff₀ hL]
    calc 80 * (u * M) * L ≤ 80 * (u * M) * (9 / 4) := by gcongr
      _ = 180 * (u * M) := by ring
      _ ≤ 200 * (u * M) := by linarith
      _ ≤ |D| := hd
  rw [Rd.lt_iff, lit0 h]
  have hpos : (0 < D / L) ↔ height (exactPlane pl) (Rd.vec a) < height (exactPlane pl) (Rd.vec b) := by
    rw [div_pos_iff_of_pos_right hL, hD, sub_pos]
  rw [← hpos]
  generalize D / L = E at *
  generalize (V3.dot (b - a) (normalize3 pl.n)).val = X at *
  rw [abs_le] at tot
  constructor
  · intro hX
    by_contra hc
    rw [abs_of_nonpos (not_lt.mp hc)] at big
    linarith [tot.1, tot.2]
  · intro hE
    rw [abs_of_pos hE] at big
    linarith [tot.1, tot.2]

end FP
open FP

variable {rnd : ℝ → ℝ} {u : ℝ}

/-- **C103.** The point computed for an edge whose ends are on opposite sides of the plane, both at least `100·u·M` away from
it: every coordinate is within `6·u·M` of a point of the edge that is within `31·u·M` of the plane. -/
theorem C103_point (h : Rounding rnd u) (hu0 : 0 < u) (hu : u ≤ 1 / 1000) {M : ℝ} (hM : 0 < M) (pl : Plane (Rd rnd)) (a b : V3 (Rd rnd))
    (hr : Within M (Rd.vec pl.r0)) (hn : Within (5 / 4) (Rd.vec pl.n)) (ha : Within M (Rd.vec a)) (hb : Within M (Rd.vec b))
    (ca : Clear u M pl a) (cb : Clear u M pl b)
    (hopp : height (exactPlane pl) (Rd.vec a) * height (exactPlane pl) (Rd.vec b) < 0) :
    ∃ c, OnSegment (Rd.vec a) (Rd.vec b) c ∧ |height (exactPlane pl) c| ≤ 31 * (u * M) ∧
      Within (6 * (u * M)) (vec3 c (Rd.vec (Polyline.edgePoint pl (a, b)))) ∧
      |height (exactPlane pl) (Rd.vec (Polyline.edgePoint pl (a, b)))| ≤ 54 * (u * M) := by
  have hU := mul_pos hu0 hM
  have d0 := dist_good h hu0 hu hM pl a hr hn ha
  have d1 := dist_good h hu0 hu hM pl b hr hn hb
  unfold Clear at ca cb
  obtain ⟨d, hd⟩ : ∃ d, d = (npAbs (pl.signedDistance1 a)).val := ⟨_, rfl⟩
  obtain ⟨e, he⟩ : ∃ e, e = (npAbs (pl.signedDistance1 b)).val := ⟨_, rfl⟩
  rw [← hd] at d0
  rw [← he] at d1
  have hdp : 0 < d := by linarith [(abs_le.mp d0).1]
  have hep : 0 < e := by linarith [(abs_le.mp d1).1]
  have hs : 0 < d + e := by linarith
  have w0 := weight h hu hdp hep
  have w1 := weight h hu hep hdp
  rw [add_comm e d] at w1
  have hsum : e / (d + e) + d / (d + e) = 1 := by field_simp; ring
  have t0 : 0 ≤ d / (d + e) := by positivity
  have t1 : 0 ≤ e / (d + e) := by positivity
  have val : ∀ p q : Rd rnd, ((Num.lit 1 - npAbs (pl.signedDistance1 a) / (npAbs (pl.signedDistance1 a) + npAbs (pl.signedDistance1 b))) * p +
      (Num.lit 1 - npAbs (pl.signedDistance1 b) / (npAbs (pl.signedDistance1 a) + npAbs (pl.signedDistance1 b))) * q).val =
      rnd (rnd (rnd (1 - rnd (d / rnd (d + e))) * p.val) + rnd (rnd (1 - rnd (e / rnd (d + e))) * q.val)) := by
    intro p q
    simp only [Rd.val_add, Rd.val_mul, Rd.val_sub, Rd.val_div, lit1 h, ← hd, ← he]
  have co : ∀ p q : Rd rnd, |p.val| ≤ M → |q.val| ≤ M → _ := fun p q hp hq => coordinate h hu hp hq t0 t1 hsum w0 w1
  have hw : Within (6 * (u * M)) (vec3 (along (Rd.vec a) (d / (d + e)) (vec3 (Rd.vec a) (Rd.vec b))) (Rd.vec (Polyline.edgePoint pl (a, b)))) := by
    refine ⟨?_, ?_, ?_⟩
    · have := co a.x b.x ha.1 hb.1
      rw [← val a.x b.x] at this
      exact this
    · have := co a.y b.y ha.2.1 hb.2.1
      rw [← val a.y b.y] at this
      exact this
    · have := co a.z b.z ha.2.2 hb.2.2
      rw [← val a.z b.z] at this
      exact this
  have hh : |height (exactPlane pl) (along (Rd.vec a) (d / (d + e)) (vec3 (Rd.vec a) (Rd.vec b)))| ≤ 31 * (u * M) := by
    rw [height_at]
    have key : ∀ A B : ℝ, |d - A| ≤ 31 * (u * M) → |e - B| ≤ 31 * (u * M) → |A - d / (d + e) * (A + B)| ≤ 31 * (u * M) := by
      intro A B hA hB
      have e1 : A - d / (d + e) * (A + B) = d / (d + e) * (e - B) - e / (d + e) * (d - A) := by field_simp; ring
      have b1 : |d / (d + e) * (e - B)| ≤ d / (d + e) * (31 * (u * M)) := by rw [abs_mul, abs_of_nonneg t0]; gcongr
      have b2 : |e / (d + e) * (d - A)| ≤ e / (d + e) * (31 * (u * M)) := by rw [abs_mul, abs_of_nonneg t1]; gcongr
      have b3 : d / (d + e) * (31 * (u * M)) + e / (d + e) * (31 * (u * M)) = 31 * (u * M) := by
        rw [← add_mul, add_comm, hsum, one_mul]
      rw [e1]
      exact (abs_sub _ _).trans (by linarith)
    rcases mul_neg_iff.mp hopp with ⟨h1, h2⟩ | ⟨h1, h2⟩
    · rw [abs_of_pos h1] at d0
      rw [abs_of_neg h2] at d1
      have := key _ _ d0 d1
      rwa [show ∀ x y t : ℝ, x + t * (y - x) = x - t * (x + -y) from fun x y t => by ring]
    · rw [abs_of_neg h1] at d0
      rw [abs_of_pos h2] at d1
      have := key _ _ d0 d1
      rw [← abs_neg] at this
      rwa [show ∀ x y t : ℝ, x + t * (y - x) = -(-x - t * (-x + y)) from fun x y t => by ring]
  refine ⟨_, ⟨_, t0, ?_, rfl⟩, hh, hw, ?_⟩
  · linarith
  · have := height_near (pl := exactPlane pl) hn hw hh
    linarith

namespace FP

/-- `q` is within `6·u·M`, in every coordinate, of a point of the edge, and within `90·u·M` of the plane -/
def NearEdge (u M : ℝ) (pl : Plane (Rd rnd)) (a b q : V3 (Rd rnd)) : Prop :=
  (∃ c, OnSegment (Rd.vec a) (Rd.vec b) c ∧ Within (6 * (u * M)) (vec3 c (Rd.vec q))) ∧
    |height (exactPlane pl) (Rd.vec q)| ≤ 90 * (u * M)

theorem mem_segs {P : Type} (v : List P) (closed : Bool) (s : P × P) (hs : s ∈ chainSegs v closed) : s.1 ∈ v ∧ s.2 ∈ v := by
  have hp : ∀ (w : List P) (s : P × P), s ∈ pairs w → s.1 ∈ w ∧ s.2 ∈ w := by
    intro w s hs
    obtain ⟨k, hk⟩ := List.mem_iff_getElem?.mp hs
    obtain ⟨xs, ys, rfl, _⟩ := pairs_split w k s hk
    simp
  obtain ⟨h1, h2⟩ := hp _ s hs
  have hc : ∀ q ∈ circuit v closed, q ∈ v := by
    intro q hq
    unfold circuit at hq
    rcases List.mem_append.mp hq with hq | hq
    · exact hq
    · cases v <;> cases closed <;> simp at hq
      simp [hq]
  exact ⟨hc _ h1, hc _ h2⟩

theorem meets_map (h : Rounding rnd u) (hu0 : 0 < u) (hu : u ≤ 1 / 1000) {M : ℝ} (hM : 0 < M) (pl : Plane (Rd rnd)) (v : List (V3 (Rd rnd)))
    (hr : Within M (Rd.vec pl.r0)) (hn : Within (5 / 4) (Rd.vec pl.n)) (hv : ∀ p ∈ v, Good u M pl p) (closed : Bool) :
    (chainSegs v closed).map (Polyline.edgeMeets pl) = (chainSegs v closed).map fun s => front pl s.1 != front pl s.2 := by
  apply List.map_congr_left
  rintro ⟨a, b⟩ hs
  obtain ⟨ha, hb⟩ := mem_segs v closed _ hs
  exact meets h hu0 hu hM pl a b hr hn (hv _ ha) (hv _ hb)

theorem meetCount_front (hu0 : 0 < u) {M : ℝ} (hM : 0 < M) (pl : Plane (Rd rnd)) (v : List (V3 (Rd rnd)))
    (hv : ∀ p ∈ v, Good u M pl p) (closed : Bool) :
    meetCount (exactPlane pl) (v.map Rd.vec) closed = (chainSegs v closed).countP fun s => front pl s.1 != front pl s.2 := by
  classical
  unfold meetCount
  rw [chainSegs_map, List.countP_map]
  apply List.countP_congr
  rintro ⟨a, b⟩ hs
  obtain ⟨ha, hb⟩ := mem_segs v closed _ hs
  have ka := back_iff hu0 hM (hv _ ha)
  have kb := back_iff hu0 hM (hv _ hb)
  have fa := front_iff pl a
  have fb := front_iff pl b
  simp only [Function.comp, decide_eq_true_eq] at *
  unfold Meets
  simp only
  rw [← ka, ← kb, ← fa, ← fb]
  cases front pl a <;> cases front pl b <;> simp

theorem point_near (h : Rounding rnd u) (hu0 : 0 < u) (hu : u ≤ 1 / 1000) {M : ℝ} (hM : 0 < M) (pl : Plane (Rd rnd)) (a b : V3 (Rd rnd))
    (hr : Within M (Rd.vec pl.r0)) (hn : Within (5 / 4) (Rd.vec pl.n)) (ha : Good u M pl a) (hb : Good u M pl b)
    (hopp : height (exactPlane pl) (Rd.vec a) * height (exactPlane pl) (Rd.vec b) < 0) :
    NearEdge u M pl a b (Polyline.edgePoint pl (a, b)) := by
  obtain ⟨c, h1, _, h3, h4⟩ := C103_point h hu0 hu hM pl a b hr hn ha.within hb.within ha.clear hb.clear hopp
  have := mul_pos hu0 hM
  exact ⟨⟨c, h1, h3⟩, by linarith⟩

theorem xsection_near (h : Rounding rnd u) (hu0 : 0 < u) (hu : u ≤ 1 / 1000) {M : ℝ} (hM : 0 < M) (pl : Plane (Rd rnd)) (a b : V3 (Rd rnd))
    (hr : Within M (Rd.vec pl.r0)) (hn : Within (5 / 4) (Rd.vec pl.n)) (ha : Good u M pl a) (hb : Good u M pl b)
    (hopp : height (exactPlane pl) (Rd.vec a) * height (exactPlane pl) (Rd.vec b) < 0) :
    ∃ q, pl.lineSegmentXsection a b = some q ∧ NearEdge u M pl a b q := by
  obtain ⟨q, t, hq, _, t0, t1, hw, _, hh⟩ := C101_found h hu0 hu hM pl a b hr hn ha.within hb.within ha.stored hb.stored ha.clear hb.clear hopp
  have hU := mul_pos hu0 hM
  refine ⟨q, hq, ⟨_, ⟨t, t0, t1, rfl⟩, ?_⟩, hh⟩
  exact ⟨hw.1.trans (by linarith), hw.2.1.trans (by linarith), hw.2.2.trans (by linarith)⟩

theorem sign_list (h : Rounding rnd u) (hu0 : 0 < u) (hu : u ≤ 1 / 1000) {M : ℝ} (hM : 0 < M) (pl : Plane (Rd rnd)) (v : List (V3 (Rd rnd)))
    (hr : Within M (Rd.vec pl.r0)) (hn : Within (5 / 4) (Rd.vec pl.n)) (hv : ∀ p ∈ v, Good u M pl p) :
    ((pl.sign v).map fun s => Num.le (Num.lit 0) s) = v.map (front pl) ∧
    ((pl.sign v).map fun s => Num.lt s (Num.lit 0)) = v.map (fun q => !front pl q) := by
  unfold Plane.sign Plane.signedDistance
  simp only [List.map_map]
  constructor <;> apply List.map_congr_left <;> intro q hq
  · exact (signs h hu0 hu hM pl q hr hn (hv q hq)).1
  · exact (signs h hu0 hu hM pl q hr hn (hv q hq)).2.1

theorem closedStart_eq (h : Rounding rnd u) (hu0 : 0 < u) (hu : u ≤ 1 / 1000) {M : ℝ} (hM : 0 < M) (pl : Plane (Rd rnd)) (v : List (V3 (Rd rnd)))
    (hr : Within M (Rd.vec pl.r0)) (hn : Within (5 / 4) (Rd.vec pl.n)) (hv : ∀ p ∈ v, Good u M pl p) :
    Polyline.closedStart (pl.sign v) = start (front pl) v := by
  obtain ⟨e1, e2⟩ := sign_list h hu0 hu hM pl v hr hn hv
  unfold Polyline.closedStart start Polyline.whereTrue
  rw [e1, e2]
  cases v with
  | nil => rfl
  | cons v0 vs =>
    have hs0 : pyIndex (pl.sign (v0 :: vs)) 0 = .ok (npSign (pl.signedDistance1 v0)) := rfl
    rw [hs0, ok_bind, (signs h hu0 hu hM pl v0 hr hn (hv v0 (by simp))).2.2.1]
    simp only [Bool.not_eq_eq_eq_not, Bool.not_true]

theorem reindexed_rd (v : List (V3 (Rd rnd))) (hne : v ≠ []) (i : ℕ) (hi : i ≤ v.length) :
    ∃ m, (poly v true).reindexed (i : ℤ) = .ok (poly (v.rotate i) true, m) := by
  refine ⟨Polyline.arange (i : ℤ) v.length ++ Polyline.arange 0 i, ?_⟩
  unfold Polyline.reindexed Polyline.vArr
  simp only [poly, Bool.not_true, Bool.false_eq_true, if_false, ok_bind]
  rw [pySlice_rotate v i hi, new_rd _ _ (fun _ => by simpa using hne)]
  rfl

end FP
open FP

/-- **C103.** `intersect_plane` on a polyline all of whose vertices are at least `100·u·M` away from the plane: the edges
returned are exactly those with ends on opposite sides, in increasing order, and the point returned for each is near a point
of the edge and near the plane. -/
theorem C103_intersect (h : Rounding rnd u) (hu0 : 0 < u) (hu : u ≤ 1 / 1000) {M : ℝ} (hM : 0 < M) (pl : Plane (Rd rnd)) (v : List (V3 (Rd rnd)))
    (closed : Bool) (hr : Within M (Rd.vec pl.r0)) (hn : Within (5 / 4) (Rd.vec pl.n)) (hv : ∀ p ∈ v, Good u M pl p) :
    ∃ (pts : List (V3 (Rd rnd))) (idx : List ℕ), (poly v closed).intersectPlane pl = .ok (pts, idx) ∧
      pts.length = idx.length ∧ idx.Pairwise (· < ·) ∧
      (∀ i, i ∈ idx ↔ ∃ s, (chainSegs v closed)[i]? = some s ∧
        height (exactPlane pl) (Rd.vec s.1) * height (exactPlane pl) (Rd.vec s.2) < 0) ∧
      ∀ (k i : ℕ), idx[k]? = some i → ∃ s q, (chainSegs v closed)[i]? = some s ∧ pts[k]? = some q ∧ NearEdge u M pl s.1 s.2 q := by
  have hmeet : ∀ s ∈ chainSegs v closed, (Polyline.edgeMeets pl s = true ↔
      height (exactPlane pl) (Rd.vec s.1) * height (exactPlane pl) (Rd.vec s.2) < 0) := by
    rintro ⟨a, b⟩ hs
    obtain ⟨ha, hb⟩ := mem_segs v closed _ hs
    rw [meets h hu0 hu hM pl a b hr hn (hv _ ha) (hv _ hb)]
    exact changes_iff hu0 hM (hv _ ha) (hv _ hb)
  refine ⟨_, _, intersectPlane_eq _ _ _, ?_, flatnonzeroFrom_sorted _ 0, ?_, ?_⟩
  · unfold Plane.flatnonzero
    rw [fnz_length, List.length_map]
  · intro i
    unfold Plane.flatnonzero
    rw [mem_flatnonzeroFrom]
    simp only [Nat.zero_le, true_and, Nat.sub_zero, List.getElem?_map, Option.map_eq_some_iff]
    constructor
    · rintro ⟨s, hs, hm⟩; exact ⟨s, hs, (hmeet s (List.mem_of_getElem? hs)).mp hm⟩
    · rintro ⟨s, hs, hm⟩; exact ⟨s, hs, (hmeet s (List.mem_of_getElem? hs)).mpr hm⟩
  · intro k i hk
    unfold Plane.flatnonzero at hk
    obtain ⟨_, s, h1, h2, h3⟩ := fnz_getElem? _ _ 0 k i hk
    rw [Nat.sub_zero] at h1
    have hs := List.mem_of_getElem? h1
    obtain ⟨ha, hb⟩ := mem_segs v closed _ hs
    refine ⟨s, _, h1, by rw [List.getElem?_map, h3]; rfl, ?_⟩
    exact point_near h hu0 hu hM pl s.1 s.2 hr hn (hv _ ha) (hv _ hb) ((hmeet s hs).mp h2)

/-- **C103.** `cut_by_plane` raises ValueError unless the exact number of edges meeting the plane is one, or two for a closed
polyline. -/
theorem C103_count (h : Rounding rnd u) (hu0 : 0 < u) (hu : u ≤ 1 / 1000) {M : ℝ} (hM : 0 < M) (pl : Plane (Rd rnd)) (v : List (V3 (Rd rnd)))
    (closed : Bool) (hr : Within M (Rd.vec pl.r0)) (hn : Within (5 / 4) (Rd.vec pl.n)) (hv : ∀ p ∈ v, Good u M pl p)
    (hc : meetCount (exactPlane pl) (v.map Rd.vec) closed ≠ if closed then 2 else 1) :
    (poly v closed).cutByPlane pl = .error .ValueError := by
  have hlen : (Plane.flatnonzero ((chainSegs v closed).map (Polyline.edgeMeets pl))).length =
      meetCount (exactPlane pl) (v.map Rd.vec) closed := by
    rw [meetCount_front hu0 hM pl v hv, meets_map h hu0 hu hM pl v hr hn hv]
    unfold Plane.flatnonzero
    rw [fnz_length (fun s : V3 (Rd rnd) × V3 (Rd rnd) => front pl s.1 != front pl s.2), ← List.countP_eq_length_filter]
  unfold Polyline.cutByPlane
  rw [intersectPlane_eq, ok_bind]
  simp only [hlen]
  by_cases h0 : meetCount (exactPlane pl) (v.map Rd.vec) closed = 0
  · rw [if_pos h0]
  · rw [if_neg h0]
    cases closed with
    | true =>
      simp only [if_true] at hc
      rw [if_pos (show (poly v true).closed = true from rfl), if_pos hc]
    | false =>
      simp only [Bool.false_eq_true, if_false] at hc
      rw [if_neg (by simp [poly]), if_pos (by omega)]

/-- **C103.** An open polyline of which exactly one edge meets the plane: the cut is made of a point near the crossing and
of all vertices on the front side of it. -/
theorem C103_open (h : Rounding rnd u) (hu0 : 0 < u) (hu : u ≤ 1 / 1000) {M : ℝ} (hM : 0 < M) (pl : Plane (Rd rnd)) (v : List (V3 (Rd rnd)))
    (hr : Within M (Rd.vec pl.r0)) (hn : Within (5 / 4) (Rd.vec pl.n)) (hv : ∀ p ∈ v, Good u M pl p)
    (hc : meetCount (exactPlane pl) (v.map Rd.vec) false = 1) :
    ∃ i a b q, v[i]? = some a ∧ v[i + 1]? = some b ∧ NearEdge u M pl a b q ∧
      (((∀ p ∈ v.take (i + 1), height (exactPlane pl) (Rd.vec p) < 0) ∧ (∀ p ∈ v.drop (i + 1), 0 < height (exactPlane pl) (Rd.vec p)) ∧
          (poly v false).cutByPlane pl = .ok (poly (q :: v.drop (i + 1)) false)) ∨
       ((∀ p ∈ v.take (i + 1), 0 < height (exactPlane pl) (Rd.vec p)) ∧ (∀ p ∈ v.drop (i + 1), height (exactPlane pl) (Rd.vec p) < 0) ∧
          (poly v false).cutByPlane pl = .ok (poly (v.take (i + 1) ++ [q]) false))) := by
  have hseg : chainSegs v false = pairs v := by simp [chainSegs, circuit]
  rw [meetCount_front hu0 hM pl v hv, hseg] at hc
  have hpos : 0 < (pairs v).countP (fun s => front pl s.1 != front pl s.2) := by omega
  obtain ⟨s, hs, hms⟩ := List.countP_pos_iff.mp hpos
  obtain ⟨Pr, Q, hPQ⟩ := List.append_of_mem hs
  rw [hPQ, List.countP_append, List.countP_cons, if_pos hms] at hc
  have hP : ∀ t ∈ Pr, (front pl t.1 != front pl t.2) = false := by
    have : Pr.countP (fun s => front pl s.1 != front pl s.2) = 0 := by omega
    rw [List.countP_eq_zero] at this
    intro t ht
    exact Bool.eq_false_iff.mpr (this t ht)
  have hQ : ∀ t ∈ Q, (front pl t.1 != front pl t.2) = false := by
    have : Q.countP (fun s => front pl s.1 != front pl s.2) = 0 := by omega
    rw [List.countP_eq_zero] at this
    intro t ht
    exact Bool.eq_false_iff.mpr (this t ht)
  have hi : (pairs v)[Pr.length]? = some s := by rw [hPQ]; simp
  obtain ⟨xs, ys, hsplit, hxl, htake, hdrop, _, _, hsame1, hsame2⟩ := split_once (front pl) v Pr.length s hi (by
    intro j t ht hcg
    have hcg' : ¬ (front pl t.1 != front pl t.2) = false := by simpa [Changes] using hcg
    rw [hPQ] at ht
    by_contra hne
    rcases Nat.lt_or_ge j Pr.length with h1 | h1
    · rw [List.getElem?_append_left h1] at ht
      exact hcg' (hP t (List.mem_of_getElem? ht))
    · rw [List.getElem?_append_right h1, show j - Pr.length = (j - Pr.length - 1) + 1 by omega, List.getElem?_cons_succ] at ht
      exact hcg' (hQ t (List.mem_of_getElem? ht)))
  obtain ⟨a, b⟩ := s
  simp only at hsplit htake hdrop hsame1 hsame2 hms
  obtain ⟨i, hiE⟩ : ∃ i, i = Pr.length := ⟨_, rfl⟩
  rw [← hiE] at hi hxl htake hdrop hsame1 hsame2
  have hai : v[i]? = some a := by rw [hsplit, ← hxl]; simp
  have hbi : v[i + 1]? = some b := by rw [hsplit, ← hxl, List.getElem?_append_right (by omega)]; simp
  have ga := hv a (List.mem_of_getElem? hai)
  have gb := hv b (List.mem_of_getElem? hbi)
  have hopp := (changes_iff hu0 hM ga gb).mp hms
  have hlen : v.length = i + 2 + ys.length := by rw [hsplit]; simp [hxl]; omega
  have hinter : (poly v false).intersectPlane pl = .ok ([Polyline.edgePoint pl (a, b)], [i]) := by
    have hm : ∀ t ∈ pairs v, Polyline.edgeMeets pl t = (front pl t.1 != front pl t.2) := by
      rintro ⟨x, y⟩ ht
      obtain ⟨hx, hy⟩ := mem_segs v false _ (by rw [hseg]; exact ht)
      exact meets h hu0 hu hM pl x y hr hn (hv _ hx) (hv _ hy)
    have sel := one_selected (Polyline.edgeMeets pl) Pr Q (a, b) (by rw [hm _ hs]; exact hms)
      (fun t ht => by rw [hm t (by rw [hPQ]; simp [ht])]; exact hP t ht)
      (fun t ht => by rw [hm t (by rw [hPQ]; simp [ht])]; exact hQ t ht)
    rw [intersectPlane_eq, hseg, hPQ, sel.1, sel.2, ← hiE]
    rfl
  have hcut : (poly v false).cutByPlane pl = (poly v false).cutOpen pl (Polyline.edgePoint pl (a, b)) i := by
    unfold Polyline.cutByPlane
    rw [hinter]
    rfl
  have hedge : pyIndex ((poly v false).e.getD []) (i : ℤ) = .ok (i, i + 1) := by
    apply pyIndex_of_getElem?
    show (chainEdges v.length false)[i]? = some (i, i + 1)
    unfold chainEdges
    have hlt : i < v.length - 1 := by omega
    simp [hlt]
  have hvecs : (poly v false).segmentVectors = .ok ((chainSegs v false).map fun s => s.2 - s.1) := by
    unfold Polyline.segmentVectors
    rw [segments_eq]
    rfl
  have hvec : pyIndex ((chainSegs v false).map fun s => s.2 - s.1) (i : ℤ) = .ok (b - a) := by
    apply pyIndex_of_getElem?
    rw [hseg, List.getElem?_map, hi]
    rfl
  have hU := mul_pos hu0 hM
  have hdiff : 200 * (u * M) ≤ |height (exactPlane pl) (Rd.vec b) - height (exactPlane pl) (Rd.vec a)| := by
    have ca := ga.clear
    have cb := gb.clear
    unfold Clear at ca cb
    rcases mul_neg_iff.mp hopp with ⟨h1, h2⟩ | ⟨h1, h2⟩
    · rw [abs_of_pos h1] at ca
      rw [abs_of_neg h2] at cb
      rw [abs_of_neg (by linarith)]
      linarith
    · rw [abs_of_neg h1] at ca
      rw [abs_of_pos h2] at cb
      rw [abs_of_pos (by linarith)]
      linarith
  have hdir := direction h hu0 hu hM pl a b hn ga.within gb.within hdiff
  have hopen : (poly v false).cutOpen pl (Polyline.edgePoint pl (a, b)) i =
      if height (exactPlane pl) (Rd.vec a) < height (exactPlane pl) (Rd.vec b)
      then .ok (poly (Polyline.edgePoint pl (a, b) :: v.drop (i + 1)) false)
      else .ok (poly (v.take (i + 1) ++ [Polyline.edgePoint pl (a, b)]) false) := by
    unfold Polyline.cutOpen
    have hva : (poly v false).vArr = .ok v := rfl
    rw [hva, ok_bind]
    simp only
    rw [hedge, ok_bind, hvecs, ok_bind, hvec, ok_bind]
    have e1 : pySlice v (((i + 1 : ℕ)) : ℤ) v.length = v.drop (i + 1) := pySlice_from v _ (by omega)
    have e2 : pySlice v 0 ((i : ℤ) + 1) = v.take (i + 1) := pySlice_to v (i + 1) (by omega)
    simp only [e1, e2, Plane.normal, new_rd _ false (by simp), hdir]
  refine ⟨i, a, b, Polyline.edgePoint pl (a, b), hai, hbi, point_near h hu0 hu hM pl a b hr hn ga gb hopp, ?_⟩
  rw [hcut, hopen]
  have hvt : ∀ p ∈ v.take (i + 1), Good u M pl p := fun p hp => hv p (List.mem_of_mem_take hp)
  have hvd : ∀ p ∈ v.drop (i + 1), Good u M pl p := fun p hp => hv p (List.mem_of_mem_drop hp)
  rcases mul_neg_iff.mp hopp with ⟨h1, h2⟩ | ⟨h1, h2⟩
  · right
    rw [if_neg (by linarith)]
    refine ⟨fun p hp => ?_, fun p hp => ?_, rfl⟩
    · rw [← front_iff, hsame1 p hp, front_iff]; exact h1
    · rw [← back_iff hu0 hM (hvd p hp), hsame2 p hp, back_iff hu0 hM gb]; exact h2
  · left
    rw [if_pos (by linarith)]
    refine ⟨fun p hp => ?_, fun p hp => ?_, rfl⟩
    · rw [← back_iff hu0 hM (hvt p hp), hsame1 p hp, back_iff hu0 hM ga]; exact h1
    · rw [← front_iff, hsame2 p hp, front_iff]; exact h2

/-- **C103.** A closed polyline of which exactly two edges meet the plane: read from a suitable start, its vertices are those
in front, in order, followed by those behind; the cut is the open polyline of the former with a point near the crossing added
at each end. -/
theorem C103_closed (h : Rounding rnd u) (hu0 : 0 < u) (hu : u ≤ 1 / 1000) {M : ℝ} (hM : 0 < M) (pl : Plane (Rd rnd)) (v : List (V3 (Rd rnd)))
    (hr : Within M (Rd.vec pl.r0)) (hn : Within (5 / 4) (Rd.vec pl.n)) (hv : ∀ p ∈ v, Good u M pl p)
    (hc : meetCount (exactPlane pl) (v.map Rd.vec) true = 2) :
    ∃ r F B f0 f1 b0 b1 S E, v.rotate r = F ++ B ∧
      (∀ p ∈ F, 0 < height (exactPlane pl) (Rd.vec p)) ∧ (∀ p ∈ B, height (exactPlane pl) (Rd.vec p) < 0) ∧
      F.head? = some f0 ∧ F.getLast? = some f1 ∧ B.head? = some b0 ∧ B.getLast? = some b1 ∧
      NearEdge u M pl b1 f0 S ∧ NearEdge u M pl f1 b0 E ∧
      (poly v true).cutByPlane pl = .ok (poly (S :: F ++ [E]) false) := by
  have hlen : (Plane.flatnonzero ((chainSegs v true).map (Polyline.edgeMeets pl))).length = 2 := by
    rw [← hc, meetCount_front hu0 hM pl v hv, meets_map h hu0 hu hM pl v hr hn hv]
    unfold Plane.flatnonzero
    rw [fnz_length (fun s : V3 (Rd rnd) × V3 (Rd rnd) => front pl s.1 != front pl s.2), ← List.countP_eq_length_filter]
  rw [meetCount_front hu0 hM pl v hv] at hc
  obtain ⟨r, F, B, f0, f1, b0, b1, hrl, hstart, hw, hF, hB, hf0, hf1, hb0, hb1, hi1, hi2⟩ := split_closed (front pl) v hc
  have hne : v ≠ [] := by
    rintro rfl
    simp at hw
    rw [hw.1] at hf0
    cases hf0
  have hmem : ∀ p ∈ F ++ B, p ∈ v := fun p hp => by rw [← hw] at hp; exact List.mem_rotate.mp hp
  have hvw : ∀ p ∈ F ++ B, Good u M pl p := fun p hp => hv p (hmem p hp)
  have mf0 : f0 ∈ F := List.mem_of_mem_head? hf0
  have mf1 : f1 ∈ F := List.mem_of_mem_getLast? hf1
  have mb0 : b0 ∈ B := List.mem_of_mem_head? hb0
  have mb1 : b1 ∈ B := List.mem_of_mem_getLast? hb1
  have gF : ∀ p ∈ F, Good u M pl p := fun p hp => hvw p (by simp [hp])
  have gB : ∀ p ∈ B, Good u M pl p := fun p hp => hvw p (by simp [hp])
  have hF' : ∀ p ∈ F, 0 < height (exactPlane pl) (Rd.vec p) := fun p hp => (front_iff pl p).mp (hF p hp)
  have hB' : ∀ p ∈ B, height (exactPlane pl) (Rd.vec p) < 0 := fun p hp => (back_iff hu0 hM (gB p hp)).mp (hB p hp)
  obtain ⟨S, hS, nS⟩ := xsection_near h hu0 hu hM pl b1 f0 hr hn (gB _ mb1) (gF _ mf0) (mul_neg_of_neg_of_pos (hB' _ mb1) (hF' _ mf0))
  obtain ⟨E, hE, nE⟩ := xsection_near h hu0 hu hM pl f1 b0 hr hn (gF _ mf1) (gB _ mb0) (mul_neg_of_pos_of_neg (hF' _ mf1) (hB' _ mb0))
  refine ⟨r, F, B, f0, f1, b0, b1, S, E, hw, hF', hB', hf0, hf1, hb0, hb1, nS, nE, ?_⟩
  obtain ⟨m, hre⟩ := reindexed_rd v hne r hrl
  obtain ⟨x, F', hFe⟩ : ∃ x F', F = x :: F' := by
    cases F with
    | nil => cases hf0
    | cons x F' => exact ⟨x, F', rfl⟩
  have hFl : 0 < F.length := by rw [hFe]; simp
  -- the last vertex in front
  have hend : pyIndex (Plane.flatnonzero ((F ++ B).map (front pl))) (-1) = .ok (F.length - 1) := by
    have hfl : ((F ++ B).map (front pl))[F.length - 1]? = some true := by
      rw [List.getElem?_map, List.getElem?_append_left (by omega), ← List.getLast?_eq_getElem?, hf1]
      simp [hF f1 mf1]
    obtain ⟨k, hk1, hk2, hk3⟩ := last_true _ (List.mem_iff_getElem?.mpr ⟨_, hfl⟩)
    have h1 : ¬ k < F.length - 1 := fun hlt => hk3 _ hlt hfl
    have h2 : ¬ F.length ≤ k := by
      intro hge
      rw [List.getElem?_map, List.getElem?_append_right hge, Option.map_eq_some_iff] at hk2
      obtain ⟨q, hq, hqf⟩ := hk2
      rw [hB q (List.mem_of_getElem? hq)] at hqf
      cases hqf
    rw [hk1]
    congr 1
    omega
  unfold Polyline.cutByPlane
  rw [intersectPlane_eq, ok_bind]
  simp only [hlen]
  rw [if_neg (by norm_num), if_pos (show (poly v true).closed = true from rfl), if_neg (by simp)]
  unfold Polyline.cutClosed
  have hva : (poly v true).vArr = .ok v := rfl
  rw [hva, ok_bind, closedStart_eq h hu0 hu hM pl v hr hn hv, hstart, ok_bind, hre, ok_bind, hw]
  unfold Polyline.cutWorking
  have hvA : (poly (F ++ B) true).vArr = .ok (F ++ B) := rfl
  have hs0 : pyIndex (pl.sign (F ++ B)) 0 = .ok (npSign (pl.signedDistance1 f0)) := by
    rw [show (0 : ℤ) = ((0 : ℕ) : ℤ) from rfl]
    apply pyIndex_of_getElem?
    unfold Plane.sign Plane.signedDistance
    rw [List.map_map, List.getElem?_map, List.getElem?_append_left hFl, ← List.head?_eq_getElem?, hf0]
    rfl
  have hs1 : pyIndex (pl.sign (F ++ B)) ((F.length - 1 : ℕ) : ℤ) = .ok (npSign (pl.signedDistance1 f1)) := by
    apply pyIndex_of_getElem?
    unfold Plane.sign Plane.signedDistance
    rw [List.map_map, List.getElem?_map, List.getElem?_append_left (by omega), ← List.getLast?_eq_getElem?, hf1]
    rfl
  have hsy : ∀ (p : V3 (Rd rnd)) (i : ℤ) (s : V3 (Rd rnd) × V3 (Rd rnd)), Good u M pl p → pyIndex (chainSegs (F ++ B) true) i = .ok s →
      Polyline.synthesized pl (npSign (pl.signedDistance1 p)) (chainSegs (F ++ B) true) i = .ok (pl.lineSegmentXsection s.1 s.2) := by
    intro p i s hp hi
    unfold Polyline.synthesized
    rw [if_neg (by rw [(signs h hu0 hu hM pl p hr hn hp).2.2.2]; simp), hi]
    rfl
  have hcast : ((F.length - 1 : ℕ) : ℤ) = (F.length : ℤ) - 1 := by omega
  have hend' : pyIndex (Polyline.whereTrue (List.map (fun s => Num.le (Num.lit 0) s) (pl.sign (F ++ B)))) (-1) = .ok (F.length - 1) := by
    unfold Polyline.whereTrue
    rw [(sign_list h hu0 hu hM pl (F ++ B) hr hn hvw).1]
    exact hend
  simp only [hvA, ok_bind, segments_eq, hs0, hsy f0 (-1) _ (gF _ mf0) hi1, hend', hs1]
  rw [hcast, hsy f1 _ _ (gF _ mf1) hi2, ok_bind]
  have hsl : pySlice (F ++ B) 0 ((F.length : ℤ) - 1 + 1) = F := by
    rw [show (F.length : ℤ) - 1 + 1 = ((F.length : ℕ) : ℤ) by ring, pySlice_to _ _ (by simp)]
    simp
  rw [hsl, hS, hE]
  simp only [Polyline.toArray]
  rw [new_rd _ _ (by simp)]
  rfl

/-- Polylines of doubles that meet the hypotheses above: the path from `(1,0,-1)` over `(0,1,1)` to `(-1,-1,1)` meets the
plane `z = 0` once when open and twice when closed, and both cuts are found. -/
theorem C103_witness :
    let v : List (V3 (Rd rnd53)) := [⟨⟨1⟩, ⟨0⟩, ⟨-1⟩⟩, ⟨⟨0⟩, ⟨1⟩, ⟨1⟩⟩, ⟨⟨-1⟩, ⟨-1⟩, ⟨1⟩⟩]
    (∀ p ∈ v, Good (1 / 2 ^ 53) 1 groundF p) ∧
    meetCount (exactPlane groundF) (v.map Rd.vec) false = 1 ∧ meetCount (exactPlane groundF) (v.map Rd.vec) true = 2 ∧
    (∃ w, (poly v false).cutByPlane groundF = .ok (poly w false) ∧ w.length = 3) ∧
    (∃ w, (poly v true).cutByPlane groundF = .ok (poly w false) ∧ w.length = 4) := by
  intro v
  have h : Rounding rnd53 (1 / 2 ^ 53) := by simpa using rounding_rnd53
  have z := h.zero
  have o := h.one
  have m1 : rnd53 (-1) = -1 := by simpa using h.int (-1) (by norm_num)
  have hg : ∀ p ∈ v, Good (1 / 2 ^ 53) 1 groundF p := by
    intro p hp
    simp only [v, List.mem_cons, List.not_mem_nil, or_false] at hp
    rcases hp with rfl | rfl | rfl
    · exact ⟨by norm_num [Within, Rd.vec], ⟨o, z, m1⟩, by norm_num [Clear, height, inner3, vec3, exactPlane, Rd.vec, groundF]⟩
    · exact ⟨by norm_num [Within, Rd.vec], ⟨z, o, o⟩, by norm_num [Clear, height, inner3, vec3, exactPlane, Rd.vec, groundF]⟩
    · exact ⟨by norm_num [Within, Rd.vec], ⟨m1, m1, o⟩, by norm_num [Clear, height, inner3, vec3, exactPlane, Rd.vec, groundF]⟩
  have hr : Within 1 (Rd.vec groundF.r0) := by norm_num [Within, Rd.vec, groundF]
  have hn : Within (5 / 4) (Rd.vec groundF.n) := by norm_num [Within, Rd.vec, groundF]
  have fA : front groundF (⟨⟨1⟩, ⟨0⟩, ⟨-1⟩⟩) = false := by
    norm_num [front, height, inner3, vec3, exactPlane, Rd.vec, groundF]
  have fB : front groundF (⟨⟨0⟩, ⟨1⟩, ⟨1⟩⟩) = true := by
    norm_num [front, height, inner3, vec3, exactPlane, Rd.vec, groundF]
  have fC : front groundF (⟨⟨-1⟩, ⟨-1⟩, ⟨1⟩⟩) = true := by
    norm_num [front, height, inner3, vec3, exactPlane, Rd.vec, groundF]
  have c1 : meetCount (exactPlane groundF) (v.map Rd.vec) false = 1 := by
    rw [meetCount_front (by norm_num) one_pos groundF v hg]
    simp [v, chainSegs, circuit, pairs, fA, fB, fC]
  have c2 : meetCount (exactPlane groundF) (v.map Rd.vec) true = 2 := by
    rw [meetCount_front (by norm_num) one_pos groundF v hg]
    simp [v, chainSegs, circuit, pairs, fA, fB, fC]
  refine ⟨hg, c1, c2, ?_, ?_⟩
  · obtain ⟨i, a, b, q, hi, hi', _, hc⟩ := C103_open h (by norm_num) (by norm_num) one_pos groundF v hr hn hg c1
    have hA : height (exactPlane groundF) (Rd.vec (⟨⟨1⟩, ⟨0⟩, ⟨-1⟩⟩ : V3 (Rd rnd53))) = -1 := by
      norm_num [height, inner3, vec3, exactPlane, Rd.vec, groundF]
    have hB : height (exactPlane groundF) (Rd.vec (⟨⟨0⟩, ⟨1⟩, ⟨1⟩⟩ : V3 (Rd rnd53))) = 1 := by
      norm_num [height, inner3, vec3, exactPlane, Rd.vec, groundF]
    have hi0 : i = 0 ∨ 1 ≤ i := by omega
    rcases hc with ⟨h1, h2, h3⟩ | ⟨h1, h2, h3⟩
    · rcases hi0 with rfl | hi1
      · exact ⟨_, h3, by simp [v]⟩
      · have := h1 ⟨⟨0⟩, ⟨1⟩, ⟨1⟩⟩ (by
          apply List.mem_of_getElem? (i := 1)
          rw [List.getElem?_take_of_lt (by omega)]; rfl)
        rw [hB] at this
        norm_num at this
    · have := h1 ⟨⟨1⟩, ⟨0⟩, ⟨-1⟩⟩ (by simp [v])
      rw [hA] at this
      norm_num at this
  · obtain ⟨r, F, B, f0, f1, b0, b1, S, E, hw, hF, hB, _, _, _, _, _, _, hcut⟩ :=
      C103_closed h (by norm_num) (by norm_num) one_pos groundF v hr hn hg c2
    refine ⟨_, hcut, ?_⟩
    have hcount : (F ++ B).countP (front groundF) = 2 := by
      rw [← hw, (List.rotate_perm v r).countP_eq]
      simp [v, fA, fB, fC]
    have e1 : F.countP (front groundF) = F.length := List.countP_eq_length.mpr fun p hp => (front_iff groundF p).mpr (hF p hp)
    have e2 : B.countP (front groundF) = 0 := List.countP_eq_zero.mpr fun p hp => by
      rw [front_iff]; exact not_lt.mpr (hB p hp).le
    rw [List.countP_append, e1, e2] at hcount
    simp; omega

namespace FP

/-- the value of `rnd53` half way between two numbers with 53 bits -/
theorem rnd53_tie (x : ℝ) (k m : ℤ) (h1 : (2 : ℝ) ^ (m + 52) ≤ x) (h2 : x < (2 : ℝ) ^ (m + 53))
    (h3 : x = (k + 1 / 2) * (2 : ℝ) ^ m) : rnd53 x = (if _root_.Even k then k else k + 1 : ℤ) * (2 : ℝ) ^ m := by
  have hp : 0 < x := lt_of_lt_of_le (by positivity) h1
  have hl : Int.log 2 |x| = m + 52 := by
    rw [abs_of_pos hp]
    apply le_antisymm
    · have : Int.log 2 x < m + 53 := (Int.lt_zpow_iff_log_lt (b := 2) (by norm_num) hp).mp (by exact_mod_cast h2)
      omega
    · exact (Int.zpow_le_iff_le_log (b := 2) (by norm_num) hp).mp (by exact_mod_cast h1)
  have hu : ulp x = (2 : ℝ) ^ m := by unfold ulp; rw [hl]; congr 1; ring
  have hm : (0 : ℝ) < 2 ^ m := by positivity
  unfold rnd53
  rw [if_neg hp.ne', hu]
  have hy : x / (2 : ℝ) ^ m = k + 1 / 2 := by rw [h3]; field_simp
  have hfl : ⌊x / (2 : ℝ) ^ m⌋ = k := by
    rw [hy, Int.floor_eq_iff]
    constructor <;> linarith
  congr 2
  unfold nearestEven
  rw [if_pos (by rw [← Int.self_sub_floor, hfl, hy]; ring), hfl]

/-- `0.6` in double precision -/
noncomputable def six : ℝ := 5404319552844595 / 2 ^ 53
/-- `0.8` in double precision -/
noncomputable def eight : ℝ := 3602879701896397 / 2 ^ 52

/-- the plane through the origin with normal `(0.6, 0.8, 0)` -/
noncomputable def slant : Plane (Rd rnd53) := ⟨⟨⟨0⟩, ⟨0⟩, ⟨0⟩⟩, ⟨⟨six⟩, ⟨eight⟩, ⟨0⟩⟩⟩

noncomputable def cornerA : V3 (Rd rnd53) := ⟨⟨3 / 2⟩, ⟨-(9 / 8)⟩, ⟨0⟩⟩
noncomputable def cornerB : V3 (Rd rnd53) := ⟨⟨-1⟩, ⟨3 / 4⟩, ⟨0⟩⟩
noncomputable def cornerC : V3 (Rd rnd53) := ⟨⟨4⟩, ⟨0⟩, ⟨0⟩⟩

theorem tie_ax : rnd53 (3 / 2 * six) = 2026619832316723 / 2 ^ 51 := by
  rw [rnd53_tie _ 8106479329266892 (-53) (by norm_num [six]) (by norm_num [six]) (by norm_num [six]), if_pos (by decide)]
  norm_num

theorem ev_ay : rnd53 (9 / 8 * eight) = 8106479329266893 / 2 ^ 53 := by
  rw [rnd53_eval _ 8106479329266893 (-53) (by norm_num [eight]) (by norm_num [eight]) (by norm_num [eight, abs_lt])]
  norm_num

theorem tie_by : rnd53 (3 / 4 * eight) = 1351079888211149 / 2 ^ 51 := by
  rw [rnd53_tie _ 5404319552844595 (-53) (by norm_num [eight]) (by norm_num [eight]) (by norm_num [eight]), if_neg (by decide)]
  norm_num

theorem ev_rx : rnd53 (5 / 2 * six) = 3 / 2 := by
  rw [rnd53_eval _ 6755399441055744 (-52) (by norm_num [six]) (by norm_num [six]) (by norm_num [six, abs_lt])]
  norm_num

theorem ev_ry : rnd53 (15 / 8 * eight) = 3 / 2 := by
  rw [rnd53_eval _ 6755399441055744 (-52) (by norm_num [eight]) (by norm_num [eight]) (by norm_num [eight, abs_lt])]
  norm_num

theorem exact (k m : ℤ) (hk : |k| ≤ 2 ^ 53) {x : ℝ} (hx : x = k * (2 : ℝ) ^ m) : rnd53 x = x := by
  rw [hx]; exact rnd53_grid k m hk

theorem slant_sd (p : V3 (Rd rnd53)) : (slant.signedDistance1 p).val =
    rnd53 (rnd53 (rnd53 (rnd53 (p.x.val * six) + rnd53 (p.y.val * eight)) + rnd53 (p.z.val * 0))) := by
  show rnd53 (rnd53 (rnd53 (rnd53 (p.x.val * six) + rnd53 (p.y.val * eight)) + rnd53 (p.z.val * 0)) +
      -rnd53 (rnd53 (rnd53 (0 * six) + rnd53 (0 * eight)) + rnd53 (0 * 0))) = _
  simp only [zero_mul, rounding_rnd53.zero, add_zero, neg_zero]

theorem sd_a : (slant.signedDistance1 cornerA).val = -(1 / 2 ^ 53) := by
  have e : rnd53 (-(1 / 2 ^ 53)) = -(1 / 2 ^ 53) := exact (-1) (-53) (by norm_num) (by norm_num)
  rw [slant_sd]
  simp only [cornerA, neg_mul, rnd53_neg, tie_ax, ev_ay, mul_zero, rounding_rnd53.zero, add_zero]
  rw [show (2026619832316723 / 2 ^ 51 + -(8106479329266893 / 2 ^ 53) : ℝ) = -(1 / 2 ^ 53) by norm_num, e, e, e]

theorem sd_b : (slant.signedDistance1 cornerB).val = 1 / 2 ^ 53 := by
  have e : rnd53 (1 / 2 ^ 53) = 1 / 2 ^ 53 := exact 1 (-53) (by norm_num) (by norm_num)
  have e6 : rnd53 six = six := exact 5404319552844595 (-53) (by norm_num) (by norm_num [six])
  rw [slant_sd]
  simp only [cornerB, neg_mul, one_mul, rnd53_neg, tie_by, e6, mul_zero, rounding_rnd53.zero, add_zero]
  rw [show (-six + 1351079888211149 / 2 ^ 51 : ℝ) = 1 / 2 ^ 53 by norm_num [six], e, e, e]

theorem ev_4 : rnd53 (4 * six) = 4 * six := exact 5404319552844595 (-51) (by norm_num) (by norm_num [six])

theorem sd_c : (slant.signedDistance1 cornerC).val = 4 * six := by
  rw [slant_sd]
  simp only [cornerC, ev_4, zero_mul, mul_zero, rounding_rnd53.zero, add_zero]

theorem sign_pos {x : Rd rnd53} (hx : 0 < x.val) : npSign x = ⟨1⟩ := by
  have h := rounding_rnd53
  unfold npSign
  rw [if_pos (by rw [Rd.lt_iff, lit0 h]; exact hx)]
  exact Rd.ext (lit1 h)

theorem sign_neg {x : Rd rnd53} (hx : x.val < 0) : npSign x = ⟨-1⟩ := by
  have h := rounding_rnd53
  unfold npSign
  rw [if_neg (by rw [Rd.lt_iff, lit0 h]; exact not_lt.mpr hx.le), if_pos (by rw [Rd.lt_iff, lit0 h]; exact hx)]
  exact Rd.ext (litm1 h)

theorem sign_a : npSign (slant.signedDistance1 cornerA) = ⟨-1⟩ := sign_neg (by rw [sd_a]; norm_num)
theorem sign_b : npSign (slant.signedDistance1 cornerB) = ⟨1⟩ := sign_pos (by rw [sd_b]; norm_num)
theorem sign_c : npSign (slant.signedDistance1 cornerC) = ⟨1⟩ := sign_pos (by rw [sd_c]; norm_num [six])

theorem slant_ab : slant.lineSegmentXsection cornerA cornerB = none := by
  have h := rounding_rnd53
  have r1 : rnd53 (-1 - 3 / 2) = -(5 / 2) := by
    rw [show (-1 - 3 / 2 : ℝ) = -(5 / 2) by norm_num]; exact exact (-5) (-1) (by norm_num) (by norm_num)
  have r2 : rnd53 (3 / 4 - -(9 / 8)) = 15 / 8 := by
    rw [show (3 / 4 - -(9 / 8) : ℝ) = 15 / 8 by norm_num]; exact exact 15 (-3) (by norm_num) (by norm_num)
  have hden : (V3.dot (cornerB - cornerA) slant.n).val = 0 := by
    show rnd53 (rnd53 (rnd53 (rnd53 (-1 - 3 / 2) * six) + rnd53 (rnd53 (3 / 4 - -(9 / 8)) * eight)) + rnd53 (rnd53 (0 - 0) * 0)) = 0
    rw [r1, r2, neg_mul, rnd53_neg, ev_rx, ev_ry]
    norm_num [h.zero]
  have he : Num.eq (V3.dot (cornerB - cornerA) slant.n) (Num.lit 0) = true := by rw [Rd.eq_iff, hden, lit0 h]
  unfold Plane.lineSegmentXsection Plane.lineXsection Plane.normal
  simp only [he]
  rfl

theorem slant_ca : slant.lineSegmentXsection cornerC cornerA = some cornerA := by
  have h := rounding_rnd53
  have r1 : rnd53 (3 / 2 - 4) = -(5 / 2) := by
    rw [show (3 / 2 - 4 : ℝ) = -(5 / 2) by norm_num]; exact exact (-5) (-1) (by norm_num) (by norm_num)
  have r2 : rnd53 (-(9 / 8)) = -(9 / 8) := exact (-9) (-3) (by norm_num) (by norm_num)
  have r3 : rnd53 (3 / 2 + 8106479329266893 / 2 ^ 53) = 5404319552844595 / 2 ^ 51 := by
    rw [rnd53_eval _ 5404319552844595 (-51) (by norm_num) (by norm_num) (by norm_num [abs_lt])]; norm_num
  have r4 : rnd53 (5404319552844595 / 2 ^ 51) = 5404319552844595 / 2 ^ 51 := exact 5404319552844595 (-51) (by norm_num) (by norm_num)
  have r5 : rnd53 (-4) = -4 := by simpa using h.int (-4) (by norm_num)
  have r6 : rnd53 (-(5 / 2)) = -(5 / 2) := exact (-5) (-1) (by norm_num) (by norm_num)
  have r7 : rnd53 (-(5 / 2) + 4) = 3 / 2 := by
    rw [show (-(5 / 2) + 4 : ℝ) = 3 / 2 by norm_num]; exact exact 3 (-1) (by norm_num) (by norm_num)
  have hden : (V3.dot (cornerA - cornerC) slant.n).val = -(5404319552844595 / 2 ^ 51) := by
    show rnd53 (rnd53 (rnd53 (rnd53 (3 / 2 - 4) * six) + rnd53 (rnd53 (-(9 / 8) - 0) * eight)) + rnd53 (rnd53 (0 - 0) * 0)) = _
    rw [r1, sub_zero, r2, neg_mul, neg_mul, rnd53_neg, rnd53_neg, ev_rx, ev_ay, ← neg_add, rnd53_neg, r3, mul_zero, h.zero, add_zero, rnd53_neg, r4]
  have hnum : (V3.dot (slant.r0 - cornerC) slant.n).val = -(5404319552844595 / 2 ^ 51) := by
    show rnd53 (rnd53 (rnd53 (rnd53 (0 - 4) * six) + rnd53 (rnd53 (0 - 0) * eight)) + rnd53 (rnd53 (0 - 0) * 0)) = _
    rw [zero_sub, r5, neg_mul, rnd53_neg, ev_4, sub_zero, h.zero, zero_mul, zero_mul, h.zero, add_zero, add_zero, rnd53_neg, ev_4, rnd53_neg, ev_4]
    norm_num [six]
  have hne : Num.eq (V3.dot (cornerA - cornerC) slant.n) (Num.lit 0) = false := by
    rw [Bool.eq_false_iff]
    intro hc
    rw [Rd.eq_iff, lit0 h, hden] at hc
    norm_num at hc
  have hp : (V3.dot (slant.r0 - cornerC) slant.n / V3.dot (cornerA - cornerC) slant.n).val = 1 := by
    rw [Rd.val_div, hnum, hden, div_self (by norm_num), h.one]
  have hq : V3.smul (V3.dot (slant.r0 - cornerC) slant.n / V3.dot (cornerA - cornerC) slant.n) (cornerA - cornerC) + cornerC = cornerA := by
    ext
    · show rnd53 (rnd53 ((V3.dot (slant.r0 - cornerC) slant.n / V3.dot (cornerA - cornerC) slant.n).val * rnd53 (3 / 2 - 4)) + 4) = 3 / 2
      rw [hp, one_mul, r1, r6, r7]
    · show rnd53 (rnd53 ((V3.dot (slant.r0 - cornerC) slant.n / V3.dot (cornerA - cornerC) slant.n).val * rnd53 (-(9 / 8) - 0)) + 0) = -(9 / 8)
      rw [hp, one_mul, sub_zero, r2, r2, add_zero, r2]
    · show rnd53 (rnd53 ((V3.dot (slant.r0 - cornerC) slant.n / V3.dot (cornerA - cornerC) slant.n).val * rnd53 (0 - 0)) + 0) = 0
      rw [hp, one_mul, sub_zero, h.zero, h.zero, add_zero, h.zero]
  have hin : Plane.outOfBounds cornerA cornerC cornerA = false := by
    rw [Bool.eq_false_iff, ne_eq, outOfBounds_iff]
    simp
  unfold Plane.lineSegmentXsection Plane.lineXsection Plane.normal Plane.referencePoint
  simp only [hne, hq]
  simp [hin]

end FP

/-- **C103, what does not hold.** Nearer to the plane a crossing point may be left out without notice: a closed triangle of
doubles and a plane through the origin.  The edge from `A` to `B` passes the plane at the origin, one unit away from both ends;
`intersect_plane` finds this edge, but the cut goes from `B` over `C` to the edge `CA` and has no vertex near the origin. -/
theorem C103_lost :
    Plane.mk' ⟨⟨0⟩, ⟨0⟩, ⟨0⟩⟩ ⟨⟨six⟩, ⟨eight⟩, ⟨0⟩⟩ = .ok slant ∧
    (∀ p ∈ [cornerA, cornerB, cornerC], Stored p) ∧
    height (exactPlane slant) (Rd.vec cornerA) < 0 ∧ 0 < height (exactPlane slant) (Rd.vec cornerB) ∧
    0 < height (exactPlane slant) (Rd.vec cornerC) ∧
    OnPlane (exactPlane slant) zero3 ∧ OnSegment (Rd.vec cornerA) (Rd.vec cornerB) zero3 ∧
    (∃ pts, (poly [cornerA, cornerB, cornerC] true).intersectPlane slant = .ok (pts, [0, 2])) ∧
    (poly [cornerA, cornerB, cornerC] true).cutByPlane slant = .ok (poly [cornerB, cornerC, cornerA] false) ∧
    ∀ p ∈ [cornerB, cornerC, cornerA], 1 < dist3 zero3 (Rd.vec p) := by
  have h := rounding_rnd53
  have z := h.zero
  have o := h.one
  have m1 : rnd53 (-1) = -1 := by simpa using h.int (-1) (by norm_num)
  have e6 : rnd53 six = six := exact 5404319552844595 (-53) (by norm_num) (by norm_num [six])
  have e8 : rnd53 eight = eight := exact 3602879701896397 (-52) (by norm_num) (by norm_num [eight])
  have hmk : Plane.mk' ⟨⟨0⟩, ⟨0⟩, ⟨0⟩⟩ ⟨⟨six⟩, ⟨eight⟩, ⟨0⟩⟩ = .ok slant := by
    have s6 : rnd53 (six * six) = 6485183463413514 / 2 ^ 54 := by
      rw [rnd53_eval _ 6485183463413514 (-54) (by norm_num [six]) (by norm_num [six]) (by norm_num [six, abs_lt])]; norm_num
    have s8 : rnd53 (eight * eight) = 5764607523034236 / 2 ^ 53 := by
      rw [rnd53_eval _ 5764607523034236 (-53) (by norm_num [eight]) (by norm_num [eight]) (by norm_num [eight, abs_lt])]; norm_num
    have s1 : rnd53 (6485183463413514 / 2 ^ 54 + 5764607523034236 / 2 ^ 53) = 1 := by
      rw [rnd53_tie _ 4503599627370496 (-52) (by norm_num) (by norm_num) (by norm_num), if_pos (by decide)]; norm_num
    have hnorm : (V3.norm (⟨⟨six⟩, ⟨eight⟩, ⟨0⟩⟩ : V3 (Rd rnd53))).val = 1 := by
      show rnd53 (Real.sqrt (rnd53 (rnd53 (rnd53 (six * six) + rnd53 (eight * eight)) + rnd53 (0 * 0)))) = 1
      rw [s6, s8, s1, mul_zero, z, add_zero, o, Real.sqrt_one, o]
    have hlit : rnd53 (((1 / 100000000 : ℚ) : ℝ)) ≤ 1 / 2 := by
      have e : rnd53 (1 / 2) = 1 / 2 := exact 1 (-1) (by norm_num) (by norm_num)
      rw [← e]
      exact h.mono (by norm_num)
    have hz : almostZero (⟨⟨six⟩, ⟨eight⟩, ⟨0⟩⟩ : V3 (Rd rnd53)) defaultAtol = false := by
      have : closeToZero (⟨six⟩ : Rd rnd53) defaultAtol = false := by
        rw [Bool.eq_false_iff]
        unfold closeToZero npAbs defaultAtol
        rw [if_neg (by rw [Rd.lt_iff, lit0 h]; norm_num [six]), ne_eq, Rd.le_iff, Rd.val_lit]
        intro hc
        have : six ≤ 1 / 2 := hc.trans hlit
        norm_num [six] at this
      unfold almostZero
      rw [this]; rfl
    unfold Plane.mk'
    rw [hz]
    simp only [Bool.false_eq_true, if_false]
    congr 1
    unfold slant
    ext
    · rfl
    · rfl
    · rfl
    · show rnd53 (six / (V3.norm (⟨⟨six⟩, ⟨eight⟩, ⟨0⟩⟩ : V3 (Rd rnd53))).val) = six
      rw [hnorm, div_one, e6]
    · show rnd53 (eight / (V3.norm (⟨⟨six⟩, ⟨eight⟩, ⟨0⟩⟩ : V3 (Rd rnd53))).val) = eight
      rw [hnorm, div_one, e8]
    · show rnd53 (0 / (V3.norm (⟨⟨six⟩, ⟨eight⟩, ⟨0⟩⟩ : V3 (Rd rnd53))).val) = 0
      rw [zero_div, z]
  have hst : ∀ p ∈ [cornerA, cornerB, cornerC], Stored p := by
    have e1 : rnd53 (3 / 2) = 3 / 2 := exact 3 (-1) (by norm_num) (by norm_num)
    have e2 : rnd53 (-(9 / 8)) = -(9 / 8) := exact (-9) (-3) (by norm_num) (by norm_num)
    have e3 : rnd53 (3 / 4) = 3 / 4 := exact 3 (-2) (by norm_num) (by norm_num)
    have e4 : rnd53 4 = 4 := exact 4 0 (by norm_num) (by norm_num)
    intro p hp
    simp only [List.mem_cons, List.not_mem_nil, or_false] at hp
    rcases hp with rfl | rfl | rfl
    · exact ⟨e1, e2, z⟩
    · exact ⟨m1, e3, z⟩
    · exact ⟨e4, z, z⟩
  have abs_lt_two : ∀ s t : Rd rnd53, s = ⟨-1⟩ → t = ⟨1⟩ → Num.eq (npAbs (s + t)) (Num.lit 2) = false ∧ Num.eq (npAbs (t + s)) (Num.lit 2) = false := by
    rintro s t rfl rfl
    have e : ((⟨-1⟩ : Rd rnd53) + ⟨1⟩ : Rd rnd53) = ⟨0⟩ := Rd.ext (by rw [Rd.val_add]; norm_num [z])
    have e' : ((⟨1⟩ : Rd rnd53) + ⟨-1⟩ : Rd rnd53) = ⟨0⟩ := Rd.ext (by rw [Rd.val_add]; norm_num [z])
    have a0 : Num.eq (npAbs (⟨0⟩ : Rd rnd53)) (Num.lit 2) = false := by
      rw [Bool.eq_false_iff]
      unfold npAbs
      rw [if_neg (by rw [Rd.lt_iff, lit0 h]; norm_num), ne_eq, Rd.eq_iff, lit2 h]
      norm_num
    rw [e, e']
    exact ⟨a0, a0⟩
  have two : Num.eq (npAbs ((⟨1⟩ : Rd rnd53) + ⟨1⟩)) (Num.lit 2) = true := by
    have e2 : rnd53 2 = 2 := by simpa using h.int 2 (by norm_num)
    have e : ((⟨1⟩ : Rd rnd53) + ⟨1⟩ : Rd rnd53) = ⟨2⟩ := Rd.ext (by rw [Rd.val_add]; norm_num [e2])
    rw [e]
    unfold npAbs
    rw [if_neg (by rw [Rd.lt_iff, lit0 h]; norm_num), Rd.eq_iff, lit2 h]
  have mAB : Polyline.edgeMeets slant (cornerA, cornerB) = true := by
    unfold Polyline.edgeMeets
    rw [(abs_lt_two _ _ sign_a sign_b).1]; rfl
  have mBC : Polyline.edgeMeets slant (cornerB, cornerC) = false := by
    unfold Polyline.edgeMeets
    simp only [sign_b, sign_c, two]; rfl
  have mCA : Polyline.edgeMeets slant (cornerC, cornerA) = true := by
    unfold Polyline.edgeMeets
    rw [(abs_lt_two _ _ sign_a sign_c).2]; rfl
  have hseg : chainSegs [cornerA, cornerB, cornerC] true = [(cornerA, cornerB), (cornerB, cornerC), (cornerC, cornerA)] := rfl
  have hint : (poly [cornerA, cornerB, cornerC] true).intersectPlane slant =
      .ok ([Polyline.edgePoint slant (cornerA, cornerB), Polyline.edgePoint slant (cornerC, cornerA)], [0, 2]) := by
    rw [intersectPlane_eq, hseg]
    simp [mAB, mBC, mCA, Plane.flatnonzero, Plane.flatnonzeroFrom]
  have hcut : (poly [cornerA, cornerB, cornerC] true).cutByPlane slant = .ok (poly [cornerB, cornerC, cornerA] false) := by
    have lem : Num.le (Num.lit 0) (⟨-1⟩ : Rd rnd53) = false := by rw [Bool.eq_false_iff, ne_eq, Rd.le_iff, lit0 h]; norm_num
    have lep : Num.le (Num.lit 0) (⟨1⟩ : Rd rnd53) = true := by rw [Rd.le_iff, lit0 h]; norm_num
    have eqm : Num.eq (⟨-1⟩ : Rd rnd53) (Num.lit (-1)) = true := by rw [Rd.eq_iff, litm1 h]
    have eq0 : Num.eq (⟨1⟩ : Rd rnd53) (Num.lit 0) = false := by rw [Bool.eq_false_iff, ne_eq, Rd.eq_iff, lit0 h]; norm_num
    have hs1 : slant.sign [cornerA, cornerB, cornerC] = [⟨-1⟩, ⟨1⟩, ⟨1⟩] := by
      simp [Plane.sign, Plane.signedDistance, sign_a, sign_b, sign_c]
    have hs2 : slant.sign [cornerB, cornerC, cornerA] = [⟨1⟩, ⟨1⟩, ⟨-1⟩] := by
      simp [Plane.sign, Plane.signedDistance, sign_a, sign_b, sign_c]
    obtain ⟨m, hre⟩ := reindexed_rd [cornerA, cornerB, cornerC] (by simp) 1 (by simp)
    unfold Polyline.cutByPlane
    rw [hint, ok_bind]
    simp only [List.length_cons, List.length_nil]
    rw [if_neg (by norm_num), if_pos (show (poly [cornerA, cornerB, cornerC] true).closed = true from rfl), if_neg (by simp)]
    unfold Polyline.cutClosed
    have hva : (poly [cornerA, cornerB, cornerC] true).vArr = .ok [cornerA, cornerB, cornerC] := rfl
    have hva' : (poly [cornerB, cornerC, cornerA] true).vArr = .ok [cornerB, cornerC, cornerA] := rfl
    have hst : Polyline.closedStart (slant.sign [cornerA, cornerB, cornerC]) = .ok 1 := by
      rw [hs1]
      unfold Polyline.closedStart
      rw [show pyIndex [(⟨-1⟩ : Rd rnd53), ⟨1⟩, ⟨1⟩] 0 = .ok ⟨-1⟩ from rfl, ok_bind, if_pos eqm]
      simp only [List.map_cons, List.map_nil, lem, lep]
      rfl
    rw [hva, ok_bind, hst, ok_bind, hre, ok_bind]
    rw [show [cornerA, cornerB, cornerC].rotate 1 = [cornerB, cornerC, cornerA] from rfl]
    unfold Polyline.cutWorking
    simp only [hva', ok_bind, segments_eq, hs2]
    rw [show pyIndex [(⟨1⟩ : Rd rnd53), ⟨1⟩, ⟨-1⟩] 0 = .ok ⟨1⟩ from rfl, ok_bind]
    have sy1 : Polyline.synthesized slant ⟨1⟩ (chainSegs [cornerB, cornerC, cornerA] true) (-1) = .ok none := by
      unfold Polyline.synthesized
      rw [if_neg (by rw [eq0]; simp), show pyIndex (chainSegs [cornerB, cornerC, cornerA] true) (-1) = .ok (cornerA, cornerB) from rfl, ok_bind]
      simp only [slant_ab]
      rfl
    have sy2 : Polyline.synthesized slant ⟨1⟩ (chainSegs [cornerB, cornerC, cornerA] true) ((1 : ℕ) : ℤ) = .ok (some cornerA) := by
      unfold Polyline.synthesized
      rw [if_neg (by rw [eq0]; simp), show pyIndex (chainSegs [cornerB, cornerC, cornerA] true) ((1 : ℕ) : ℤ) = .ok (cornerC, cornerA) from rfl, ok_bind]
      simp only [slant_ca]
      rfl
    rw [sy1, ok_bind]
    simp only [List.map_cons, List.map_nil, lem, lep]
    rw [show pyIndex (Polyline.whereTrue [true, true, false]) (-1) = .ok 1 from rfl, ok_bind,
      show pyIndex [(⟨1⟩ : Rd rnd53), ⟨1⟩, ⟨-1⟩] ((1 : ℕ) : ℤ) = .ok ⟨1⟩ from rfl, ok_bind, sy2, ok_bind]
    rw [show Polyline.toArray (none : Option (V3 (Rd rnd53))) ++ pySlice [cornerB, cornerC, cornerA] 0 (((1 : ℕ) : ℤ) + 1) ++ Polyline.toArray (some cornerA)
      = [cornerB, cornerC, cornerA] from rfl, new_rd _ _ (by simp)]
  refine ⟨hmk, hst, ?_, ?_, ?_, ?_, ?_, ⟨_, hint⟩, hcut, ?_⟩
  · norm_num [height, inner3, vec3, exactPlane, Rd.vec, slant, cornerA, six, eight]
  · norm_num [height, inner3, vec3, exactPlane, Rd.vec, slant, cornerB, six, eight]
  · norm_num [height, inner3, vec3, exactPlane, Rd.vec, slant, cornerC, six, eight]
  · norm_num [OnPlane, inner3, vec3, exactPlane, Rd.vec, slant, zero3]
  · refine ⟨3 / 5, by norm_num, by norm_num, ?_⟩
    ext <;> norm_num [zero3, along, vec3, Rd.vec, cornerA, cornerB]
  · intro p hp
    unfold dist3 len3
    rw [Real.lt_sqrt (by norm_num)]
    simp only [List.mem_cons, List.not_mem_nil, or_false] at hp
    rcases hp with rfl | rfl | rfl <;> norm_num [inner3, vec3, Rd.vec, zero3, cornerA, cornerB, cornerC]

end Blmath.Props
