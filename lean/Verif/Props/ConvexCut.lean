import Verif.Props.ConvexSlice
import Verif.Props.PolylineCut

/-!
Property C141: how often a polyline meets a plane, and cutting convex outlines.
-/

namespace Blmath.Props
open Blmath.Geometry Blmath.Spec Blmath.Proofs Blmath.TM

namespace CM

/-! ### counting round a closed chain -/

section count
variable {P : Type}

theorem pairs_zip_last : ∀ (l : List P) (a z : P), pairs (a :: (l ++ [z])) = (a :: l).zip (l ++ [z])
  | [], _, _ => rfl
  | b :: l, a, z => by
    have := pairs_zip_last l b z
    rw [List.cons_append, pairs, this]; rfl

theorem segs_cyclic (v : List P) : chainSegs v true = cyclicPairs v := by
  cases v with
  | nil => rfl
  | cons q l => rw [cyclicPairs_cons, ← pairs_zip_last]; rfl

theorem countP_rotate (g : P × P → Bool) (Q : List P) (r : ℕ) : (chainSegs (Q.rotate r) true).countP g = (chainSegs Q true).countP g := by
  rw [segs_cyclic, segs_cyclic, cyclicPairs_rotate]
  exact (List.rotate_perm _ _).countP_eq g

/-- both ends have the property -/
def both (p : P → Bool) (s : P × P) : Bool := p s.1 && p s.2

theorem both_in (p : P → Bool) (b : P) (hb : p b = false) : ∀ (A : List P) (a : P), (∀ x ∈ a :: A, p x = true) →
    (pairs (a :: (A ++ [b]))).countP (both p) = A.length
  | [], a, _ => by simp [pairs, both, hb]
  | c :: A, a, h => by
    rw [List.cons_append, pairs, List.countP_cons, both_in p b hb A c (fun x hx => h x (List.mem_cons_of_mem _ hx))]
    simp [both, h a (by simp), h c (by simp)]

theorem both_out (p : P → Bool) (z : P) : ∀ (B : List P) (b : P), (∀ x ∈ b :: B, p x = false) →
    (pairs (b :: (B ++ [z]))).countP (both p) = 0
  | [], b, h => by simp [pairs, both, h b (by simp)]
  | c :: B, b, h => by
    rw [List.cons_append, pairs, List.countP_cons, both_out p z B c (fun x hx => h x (List.mem_cons_of_mem _ hx))]
    simp [both, h b (by simp)]

theorem both_append (p : P → Bool) {A B : List P} (hA : ∀ x ∈ A, p x = true) (hB : ∀ x ∈ B, p x = false) (nA : A ≠ []) (nB : B ≠ []) :
    (chainSegs (A ++ B) true).countP (both p) + 1 = A.length := by
  obtain ⟨a, A, rfl⟩ := List.exists_cons_of_ne_nil nA
  obtain ⟨b, B, rfl⟩ := List.exists_cons_of_ne_nil nB
  have e : chainSegs (a :: A ++ b :: B) true = pairs (a :: A ++ b :: (B ++ [a])) := by
    simp [chainSegs, circuit]
  rw [e, pairs_append_cons, List.countP_append]
  rw [both_out p a B b hB, List.cons_append, both_in p b (hB b (by simp)) A a hA]
  simp

/-- no four members in which the property comes and goes twice -/
def Steady (p : P → Bool) (Q : List P) : Prop := ∀ a b c d, [a, b, c, d].Sublist Q →
  ¬ (p a = true ∧ p b = false ∧ p c = true ∧ p d = false) ∧ ¬ (p a = false ∧ p b = true ∧ p c = false ∧ p d = true)

theorem dropWhile_cons {p : P → Bool} : ∀ {l : List P} {c : P} {m : List P}, l.dropWhile p = c :: m → p c = false
  | [], _, _, h => by simp at h
  | x :: l, c, m, h => by
    rw [List.dropWhile_cons] at h
    split at h
    · exact dropWhile_cons h
    · rename_i hx
      rw [List.cons.injEq] at h
      rw [← h.1]; simpa using hx

theorem all_takeWhile {p : P → Bool} : ∀ {l : List P}, ∀ x ∈ l.takeWhile p, p x = true
  | [], _, h => by simp at h
  | y :: l, x, h => by
    rw [List.takeWhile_cons] at h
    split at h
    · rename_i hy
      rcases List.mem_cons.mp h with rfl | h
      · exact hy
      · exact all_takeWhile x h
    · simp at h

theorem split_head {p : P → Bool} {q : P} {l : List P} (hq : p q = true) (h : Steady p (q :: l)) :
    ∃ T U V, q :: l = T ++ U ++ V ∧ (∀ x ∈ T, p x = true) ∧ (∀ x ∈ U, p x = false) ∧ ∀ x ∈ V, p x = true := by
  obtain ⟨D, hD⟩ : ∃ D, D = (q :: l).dropWhile p := ⟨_, rfl⟩
  refine ⟨(q :: l).takeWhile p, D.takeWhile (fun x => !p x), D.dropWhile (fun x => !p x), ?_, all_takeWhile, ?_, ?_⟩
  · rw [List.append_assoc, List.takeWhile_append_dropWhile, hD, List.takeWhile_append_dropWhile]
  · intro x hx
    simpa using all_takeWhile x hx
  · intro d hd
    by_contra hpd
    have hpd : p d = false := by simpa using hpd
    cases hV : D.dropWhile (fun x => !p x) with
    | nil => rw [hV] at hd; simp at hd
    | cons c V =>
      have hc : p c = true := by simpa using dropWhile_cons hV
      rw [hV] at hd
      have hdV : d ∈ V := by
        rcases List.mem_cons.mp hd with rfl | h'
        · rw [hc] at hpd; cases hpd
        · exact h'
      cases hDD : D with
      | nil => rw [hDD] at hV; simp at hV
      | cons b D' =>
        have hb : p b = false := dropWhile_cons (hD.symm.trans hDD)
        have s1 : [q].Sublist ((q :: l).takeWhile p) := by
          rw [List.takeWhile_cons, hq]; simp
        have s2 : [b].Sublist (D.takeWhile fun x => !p x) := by
          rw [hDD, List.takeWhile_cons, hb]; simp
        have s3 : [c, d].Sublist (D.dropWhile fun x => !p x) := by
          rw [hV]; exact List.Sublist.cons_cons c (List.singleton_sublist.mpr hdV)
        have s := s1.append (s2.append s3)
        rw [List.takeWhile_append_dropWhile, hD, List.takeWhile_append_dropWhile] at s
        exact (h q b c d s).1 ⟨hq, hb, hc, hpd⟩

theorem Steady.not {p : P → Bool} {Q : List P} (h : Steady p Q) : Steady (fun x => !p x) Q := by
  intro a b c d hs
  have := h a b c d hs
  simp only [Bool.not_eq_true', Bool.not_eq_false']
  tauto

theorem split {p : P → Bool} {Q : List P} (h : Steady p Q) :
    ∃ r A B, Q.rotate r = A ++ B ∧ (∀ x ∈ A, p x = true) ∧ ∀ x ∈ B, p x = false := by
  cases Q with
  | nil => exact ⟨0, [], [], by simp, by simp, by simp⟩
  | cons q l =>
    by_cases hq : p q = true
    · obtain ⟨T, U, V, e, h1, h2, h3⟩ := split_head hq h
      refine ⟨(T ++ U).length, V ++ T, U, ?_, ?_, h2⟩
      · rw [e, List.rotate_append_length_eq, List.append_assoc]
      · intro x hx
        rcases List.mem_append.mp hx with hx | hx
        · exact h3 x hx
        · exact h1 x hx
    · obtain ⟨T, U, V, e, h1, h2, h3⟩ := split_head (p := fun x => !p x) (by simpa using hq) h.not
      refine ⟨T.length, U, V ++ T, ?_, ?_, ?_⟩
      · rw [e, List.append_assoc, List.rotate_append_length_eq, List.append_assoc]
      · intro x hx; simpa using h2 x hx
      · intro x hx
        rcases List.mem_append.mp hx with hx | hx
        · simpa using h3 x hx
        · simpa using h1 x hx

theorem both_steady {p : P → Bool} {Q : List P} (h : Steady p Q) (h1 : ∃ x ∈ Q, p x = true) (h0 : ∃ x ∈ Q, p x = false) :
    (chainSegs Q true).countP (both p) + 1 = Q.countP p := by
  obtain ⟨r, A, B, e, hA, hB⟩ := split h
  have nA : A ≠ [] := by
    rintro rfl
    obtain ⟨x, hx, hp⟩ := h1
    rw [← List.mem_rotate (n := r), e, List.nil_append] at hx
    rw [hB x hx] at hp; cases hp
  have nB : B ≠ [] := by
    rintro rfl
    obtain ⟨x, hx, hp⟩ := h0
    rw [← List.mem_rotate (n := r), e, List.append_nil] at hx
    rw [hA x hx] at hp; cases hp
  rw [← countP_rotate (both p) Q r, e, both_append p hA hB nA nB, ← (List.rotate_perm Q r).countP_eq p, e, List.countP_append,
    List.countP_eq_length.mpr hA, List.countP_eq_zero.mpr (by intro x hx; simp [hB x hx])]
  rfl

theorem mem_seg {v : List P} {s : P × P} (h : s ∈ chainSegs v true) : s.1 ∈ v ∧ s.2 ∈ v := by
  rw [segs_cyclic] at h
  unfold cyclicPairs at h
  have := List.of_mem_zip (a := s.1) (b := s.2) h
  exact ⟨this.1, List.mem_rotate.mp this.2⟩

theorem both_all {p : P → Bool} {Q : List P} (h : ∀ x ∈ Q, p x = true) : (chainSegs Q true).countP (both p) = Q.length := by
  rw [List.countP_eq_length.mpr]
  · rw [chainSegs_length]; simp
  · intro s hs
    obtain ⟨h1, h2⟩ := mem_seg hs
    simp [both, h _ h1, h _ h2]

theorem both_none {p : P → Bool} {Q : List P} (h : ∀ x ∈ Q, p x = false) : (chainSegs Q true).countP (both p) = 0 := by
  rw [List.countP_eq_zero]
  intro s hs
  obtain ⟨h1, h2⟩ := mem_seg hs
  simp [both, h _ h1]

end count

/-! ### the sides of a plane -/

open Classical in
/-- strictly in front -/
noncomputable def pos (pl : Plane ℝ) (q : V3 ℝ) : Bool := decide (0 < height pl q)

open Classical in
/-- strictly behind -/
noncomputable def neg (pl : Plane ℝ) (q : V3 ℝ) : Bool := decide (height pl q < 0)

theorem pos_true {pl : Plane ℝ} {q : V3 ℝ} : pos pl q = true ↔ 0 < height pl q := by simp [pos]
theorem pos_false {pl : Plane ℝ} {q : V3 ℝ} : pos pl q = false ↔ height pl q ≤ 0 := by simp [pos]
theorem neg_true {pl : Plane ℝ} {q : V3 ℝ} : neg pl q = true ↔ height pl q < 0 := by simp [neg]
theorem neg_false {pl : Plane ℝ} {q : V3 ℝ} : neg pl q = false ↔ 0 ≤ height pl q := by simp [neg]

end CM

open CM

/-- number of vertices on the plane -/
noncomputable def onCount (pl : Plane ℝ) (v : List (V3 ℝ)) : ℕ :=
  open Classical in v.countP fun q => decide (OnPlane pl q)

namespace CM

theorem vertex_sum (pl : Plane ℝ) (v : List (V3 ℝ)) : v.countP (pos pl) + v.countP (neg pl) + onCount pl v = v.length := by
  classical
  unfold onCount
  induction v with
  | nil => rfl
  | cons q v ih =>
    simp only [List.countP_cons, List.length_cons, pos, neg, onPlane_iff, decide_eq_true_eq] at ih ⊢
    rcases lt_trichotomy (height pl q) 0 with h | h | h
    · rw [if_neg (not_lt.mpr h.le), if_pos h, if_neg h.ne]; omega
    · rw [if_neg (by rw [h]; exact lt_irrefl _), if_neg (by rw [h]; exact lt_irrefl _), if_pos h]; omega
    · rw [if_pos h, if_neg (not_lt.mpr h.le), if_neg h.ne']; omega

theorem edge_sum (pl : Plane ℝ) (v : List (V3 ℝ)) :
    meetCount pl v true + (chainSegs v true).countP (both (pos pl)) + (chainSegs v true).countP (both (neg pl)) = v.length := by
  classical
  have hl : (chainSegs v true).length = v.length := by rw [chainSegs_length]; simp
  rw [← hl]
  unfold meetCount
  generalize chainSegs v true = l
  induction l with
  | nil => rfl
  | cons s l ih =>
    simp only [List.countP_cons, List.length_cons, both, Bool.and_eq_true, pos_true, neg_true, decide_eq_true_eq] at ih ⊢
    by_cases h1 : 0 < height pl s.1 ∧ 0 < height pl s.2
    · have h2 : ¬ (height pl s.1 < 0 ∧ height pl s.2 < 0) := fun h => absurd h.1 (not_lt.mpr h1.1.le)
      rw [if_neg (fun h : Meets pl s => h.1 h1), if_pos h1, if_neg h2]; omega
    · by_cases h2 : height pl s.1 < 0 ∧ height pl s.2 < 0
      · rw [if_neg (fun h : Meets pl s => h.2 h2), if_neg h1, if_pos h2]; omega
      · rw [if_pos (show Meets pl s from ⟨h1, h2⟩), if_neg h1, if_neg h2]; omega

/-! ### convex polygons -/

/-- two corners in front of a plane are not separated by two corners behind or on it -/
theorem no_alt {n : V3 ℝ} {k : ℝ} {Q : List (V3 ℝ)} (hn : n ≠ zero3) (h : LeftLoop n Q) (hpl : ∀ q ∈ Q, inner3 n q = k)
    {f : V3 ℝ → ℝ} (hf : ∀ a b s, f (at' a b s) = (1 - s) * f a + s * f b) {a b c d : V3 ℝ} (hs : [a, b, c, d].Sublist Q) :
    ¬ (0 < f a ∧ f b ≤ 0 ∧ 0 < f c ∧ f d ≤ 0) ∧ ¬ (f a ≤ 0 ∧ 0 < f b ∧ f c ≤ 0 ∧ 0 < f d) := by
  have hr := (CX.LeftLoop.corners h).round hn hpl (CX.LeftLoop.round h)
  have ha : a ∈ Q := hs.subset (by simp)
  have hb : b ∈ Q := hs.subset (by simp)
  have hc : c ∈ Q := hs.subset (by simp)
  have hd : d ∈ Q := hs.subset (by simp)
  have t1 : 0 < turn n a b c := triples (turning n) hr (List.Sublist.trans (by simp) hs)
  have t2 : 0 < turn n a c d := triples (turning n) hr (List.Sublist.trans (by simp) hs)
  have t3 : 0 < turn n a b d := triples (turning n) hr (List.Sublist.trans (by simp) hs)
  have t4 : 0 < turn n b c d := triples (turning n) hr (List.Sublist.trans (by simp) hs)
  obtain ⟨x, s, t, ⟨s0, s1⟩, ⟨u0, u1⟩, e1, e2⟩ := cross hn (hpl a ha) (hpl b hb) (hpl c hc) (hpl d hd) t1 t2 t3 t4
  have f1 := hf b d s
  have f2 := hf a c t
  rw [← e1] at f1
  rw [← e2] at f2
  constructor
  · rintro ⟨h1, h2, h3, h4⟩
    have g1 : f x ≤ 0 := by rw [f1]; nlinarith
    have g2 : 0 < f x := by
      rw [f2]
      rcases u0.eq_or_lt with rfl | u0
      · simpa using h1
      · nlinarith [mul_pos u0 h3, mul_nonneg (sub_nonneg.mpr u1) h1.le]
    linarith
  · rintro ⟨h1, h2, h3, h4⟩
    have g1 : f x ≤ 0 := by rw [f2]; nlinarith
    have g2 : 0 < f x := by
      rw [f1]
      rcases s0.eq_or_lt with rfl | s0
      · simpa using h2
      · nlinarith [mul_pos s0 h4, mul_nonneg (sub_nonneg.mpr s1) h2.le]
    linarith

theorem height_at (pl : Plane ℝ) (a b : V3 ℝ) (s : ℝ) : height pl (at' a b s) = (1 - s) * height pl a + s * height pl b := by
  simp only [height, Blmath.TM.at', inner3, vec3]; ring

theorem steady_pos {n : V3 ℝ} {k : ℝ} {Q : List (V3 ℝ)} (pl : Plane ℝ) (hn : n ≠ zero3) (h : LeftLoop n Q)
    (hpl : ∀ q ∈ Q, inner3 n q = k) : Steady (pos pl) Q := by
  intro a b c d hs
  simp only [pos_true, pos_false]
  exact no_alt hn h hpl (height_at pl) hs

theorem steady_neg {n : V3 ℝ} {k : ℝ} {Q : List (V3 ℝ)} (pl : Plane ℝ) (hn : n ≠ zero3) (h : LeftLoop n Q)
    (hpl : ∀ q ∈ Q, inner3 n q = k) : Steady (neg pl) Q := by
  intro a b c d hs
  have := no_alt hn h hpl (f := fun q => -height pl q) (by intro a b s; simp only [height_at]; ring) hs
  simp only [neg_true, neg_false]
  simpa only [neg_pos, neg_nonpos, Left.neg_pos_iff, Left.neg_nonpos_iff] using this

/-- a polygon that is convex in one direction or the other -/
theorem oriented {n : V3 ℝ} {k : ℝ} {Q : List (V3 ℝ)} (hn : n ≠ zero3) (h : ConvexLoop n Q) (hpl : ∀ q ∈ Q, inner3 n q = k) :
    ∃ m j, m ≠ zero3 ∧ LeftLoop m Q ∧ (∀ q ∈ Q, inner3 m q = j) ∧ (m = n ∨ m = scale3 (-1) n) := by
  rcases h with h | h
  · exact ⟨n, k, hn, h, hpl, .inl rfl⟩
  · exact ⟨_, -k, TM.neg_ne hn, h, fun q hq => by rw [TM.inner_neg, hpl q hq], .inr rfl⟩

end CM

/-! ### parity -/

namespace CM

theorem odd_pairs (pl : Plane ℝ) (z : V3 ℝ) : ∀ (l : List (V3 ℝ)) (a : V3 ℝ), (a :: l).getLast? = some z →
    (∀ q ∈ a :: l, height pl q ≠ 0) →
    (Odd (open Classical in (pairs (a :: l)).countP fun s => decide (Meets pl s)) ↔ (0 < height pl a ↔ height pl z < 0))
  | [], a, hz, h0 => by
    have : a = z := by simpa using hz
    subst this
    have := h0 a (by simp)
    simp only [pairs, List.countP_nil]
    rcases lt_or_gt_of_ne this with h | h
    · simp [h, h.le]
    · simp [h, h.le]
  | b :: l, a, hz, h0 => by
    classical
    have ih := odd_pairs pl z l b (by simpa using hz) (fun q hq => h0 q (List.mem_cons_of_mem _ hq))
    rw [pairs, List.countP_cons]
    have ha := h0 a (by simp)
    have hb := h0 b (by simp)
    have hm : Meets pl (a, b) ↔ (0 < height pl a ↔ height pl b < 0) := by
      unfold Meets
      rcases lt_or_gt_of_ne ha with h | h <;> rcases lt_or_gt_of_ne hb with h' | h' <;>
        simp [h, h', h.le, h'.le, not_lt.mpr h.le, not_lt.mpr h'.le]
    have hb' : 0 < height pl b ↔ ¬ height pl b < 0 := by
      rcases lt_or_gt_of_ne hb with h' | h' <;> simp [h', h'.le]
    by_cases hM : Meets pl (a, b)
    · rw [if_pos (by simpa using hM), Nat.odd_add_one, ih]
      have := hm.mp hM
      tauto
    · rw [if_neg (by simpa using hM), Nat.add_zero, ih]
      have : ¬ (0 < height pl a ↔ height pl b < 0) := fun h => hM (hm.mpr h)
      tauto

end CM

/-- **C141.** A closed polyline with no vertex on the plane meets it an even number of times. -/
theorem C141_even (pl : Plane ℝ) (v : List (V3 ℝ)) (h : ∀ q ∈ v, ¬ OnPlane pl q) : _root_.Even (meetCount pl v true) := by
  cases v with
  | nil => exact ⟨0, rfl⟩
  | cons a l =>
    rw [← Nat.not_odd_iff_even]
    have := odd_pairs pl a (l ++ [a]) a (by simp [List.getLast?_cons]) (by
      intro q hq
      refine h q ?_
      simp only [List.mem_cons, List.mem_append, List.not_mem_nil, or_false] at hq ⊢
      tauto)
    intro ho
    have h2 := this.mp (by simpa [meetCount, chainSegs, circuit] using ho)
    have h0 : height pl a ≠ 0 := h a (by simp)
    rcases lt_or_gt_of_ne h0 with h' | h'
    · exact absurd (h2.mpr h') (not_lt.mpr h'.le)
    · exact absurd (h2.mp h') (not_lt.mpr h'.le)

/-- **C141.** An open polyline with no vertex on the plane meets it an odd number of times exactly if its ends are on different sides. -/
theorem C141_odd (pl : Plane ℝ) (v : List (V3 ℝ)) (h : ∀ q ∈ v, ¬ OnPlane pl q) (a z : V3 ℝ) (ha : v.head? = some a)
    (hz : v.getLast? = some z) :
    Odd (meetCount pl v false) ↔ (0 < height pl a ∧ height pl z < 0) ∨ (height pl a < 0 ∧ 0 < height pl z) := by
  cases v with
  | nil => simp at ha
  | cons b l =>
    have e : b = a := by simpa using ha
    subst e
    have := odd_pairs pl z l b hz h
    have e2 : meetCount pl (b :: l) false = (open Classical in (pairs (b :: l)).countP fun s => decide (Meets pl s)) := by
      simp [meetCount, chainSegs, circuit]
    rw [e2, this]
    have hb : height pl b ≠ 0 := h b (by simp)
    have hzz : height pl z ≠ 0 := h z (List.mem_of_getLast? hz)
    rcases lt_or_gt_of_ne hb with h1 | h1 <;> rcases lt_or_gt_of_ne hzz with h2 | h2 <;>
      simp [h1, h2, h1.le, h2.le, not_lt.mpr h1.le, not_lt.mpr h2.le]

/-- **C141.** So an open polyline whose ends are on the same side of the plane, with no vertex on it, is never cut: ValueError. -/
theorem C141_same_side (pl : Plane ℝ) (v : List (V3 ℝ)) (h : ∀ q ∈ v, ¬ OnPlane pl q) (a z : V3 ℝ) (ha : v.head? = some a)
    (hz : v.getLast? = some z) (hs : 0 < height pl a * height pl z) : (poly v false).cutByPlane pl = .error .ValueError := by
  apply C39_count
  intro h1
  have := (C141_odd pl v h a z ha hz).mp (by rw [h1]; exact odd_one)
  rcases this with ⟨h1, h2⟩ | ⟨h1, h2⟩
  · exact absurd hs (not_lt.mpr (mul_nonpos_of_nonneg_of_nonpos h1.le h2.le))
  · exact absurd hs (not_lt.mpr (mul_nonpos_of_nonpos_of_nonneg h1.le h2.le))

/-! ### counting for convex outlines -/

section outline
variable {n : V3 ℝ} {k : ℝ} {Q : List (V3 ℝ)} {pl : Plane ℝ}

/-- **C141.** A plane with corners of a convex polygon on both sides meets two sides of it, plus one more for every corner on the plane. -/
theorem C141_count (hn : n ≠ zero3) (h : ConvexLoop n Q) (hpl : ∀ q ∈ Q, inner3 n q = k) (hf : ∃ q ∈ Q, 0 < height pl q)
    (hb : ∃ q ∈ Q, height pl q < 0) : meetCount pl Q true = 2 + onCount pl Q := by
  obtain ⟨m, j, hm, hl, hp, _⟩ := oriented hn h hpl
  obtain ⟨f, hfm, hf⟩ := hf
  obtain ⟨b, hbm, hb⟩ := hb
  have h1 := both_steady (steady_pos pl hm hl hp) ⟨f, hfm, pos_true.mpr hf⟩ ⟨b, hbm, pos_false.mpr hb.le⟩
  have h2 := both_steady (steady_neg pl hm hl hp) ⟨b, hbm, neg_true.mpr hb⟩ ⟨f, hfm, neg_false.mpr hf.le⟩
  have h3 := vertex_sum pl Q
  have h4 := edge_sum pl Q
  omega

/-- **C141.** A plane that has all of a convex polygon on one side, but not all of it on the plane, meets no side of it if no corner is on
the plane, and otherwise one more than there are corners on the plane. -/
theorem C141_count_side (hn : n ≠ zero3) (h : ConvexLoop n Q) (hpl : ∀ q ∈ Q, inner3 n q = k)
    (hs : (∀ q ∈ Q, 0 ≤ height pl q) ∨ ∀ q ∈ Q, height pl q ≤ 0) (hoff : ∃ q ∈ Q, ¬ OnPlane pl q) :
    meetCount pl Q true = if onCount pl Q = 0 then 0 else 1 + onCount pl Q := by
  classical
  obtain ⟨m, j, hm, hl, hp, _⟩ := oriented hn h hpl
  have h3 := vertex_sum pl Q
  have h4 := edge_sum pl Q
  obtain ⟨q, hq, hoff⟩ := hoff
  have hon : onCount pl Q ≠ 0 → ∃ x ∈ Q, height pl x = 0 := by
    intro h0
    obtain ⟨x, hx, hh⟩ := List.countP_pos_iff.mp (Nat.pos_of_ne_zero h0)
    exact ⟨x, hx, (onPlane_iff pl x).mp (by simpa using hh)⟩
  have hz : onCount pl Q = 0 → ∀ x ∈ Q, height pl x ≠ 0 := by
    intro h0 x hx hh
    have := List.countP_eq_zero.mp h0 x hx
    simp only [decide_eq_true_eq] at this
    exact this hh
  rcases hs with hs | hs
  · have hq0 : 0 < height pl q := lt_of_le_of_ne (hs q hq) (Ne.symm hoff)
    have n0 : ∀ x ∈ Q, neg pl x = false := fun x hx => neg_false.mpr (hs x hx)
    have b2 := both_none n0
    have c2 : Q.countP (neg pl) = 0 := List.countP_eq_zero.mpr (by intro x hx; simp [n0 x hx])
    split
    · rename_i h0
      have b1 := both_all (p := pos pl) (Q := Q) fun x hx => pos_true.mpr (lt_of_le_of_ne (hs x hx) (Ne.symm (hz h0 x hx)))
      omega
    · rename_i h0
      obtain ⟨x, hx, hx0⟩ := hon h0
      have b1 := both_steady (steady_pos pl hm hl hp) ⟨q, hq, pos_true.mpr hq0⟩ ⟨x, hx, pos_false.mpr hx0.le⟩
      omega
  · have hq0 : height pl q < 0 := lt_of_le_of_ne (hs q hq) hoff
    have n0 : ∀ x ∈ Q, pos pl x = false := fun x hx => pos_false.mpr (hs x hx)
    have b2 := both_none n0
    have c2 : Q.countP (pos pl) = 0 := List.countP_eq_zero.mpr (by intro x hx; simp [n0 x hx])
    split
    · rename_i h0
      have b1 := both_all (p := neg pl) (Q := Q) fun x hx => neg_true.mpr (lt_of_le_of_ne (hs x hx) (hz h0 x hx))
      omega
    · rename_i h0
      obtain ⟨x, hx, hx0⟩ := hon h0
      have b1 := both_steady (steady_neg pl hm hl hp) ⟨q, hq, neg_true.mpr hq0⟩ ⟨x, hx, neg_false.mpr hx0.ge⟩
      omega

/-- **C141.** A polyline lying in the plane meets it with every edge. -/
theorem C141_count_in (h : ∀ q ∈ Q, OnPlane pl q) : meetCount pl Q true = Q.length := by
  have h4 := edge_sum pl Q
  have b1 := both_none (p := pos pl) (Q := Q) fun x hx => pos_false.mpr (le_of_eq (h x hx))
  have b2 := both_none (p := neg pl) (Q := Q) fun x hx => neg_false.mpr (ge_of_eq (h x hx))
  omega

end outline

/-! ### the half in front -/

namespace CM

theorem single {P : Type} {l : List P} {a : P} (hn : l.Nodup) (h1 : l.head? = some a) (h2 : l.getLast? = some a) : l = [a] := by
  match l, h1, h2, hn with
  | [b], h1, _, _ => simpa using h1
  | b :: c :: l, h1, h2, hn =>
    have e : b = a := by simpa using h1
    subst e
    have : b ∈ c :: l := List.mem_of_getLast? (by simpa [List.getLast?_cons] using h2)
    exact absurd this (List.nodup_cons.mp hn).1

theorem pairs_snoc {P : Type} {l : List P} {z y : P} (h : l.getLast? = some z) : pairs (l ++ [y]) = pairs l ++ [(z, y)] := by
  obtain ⟨l', rfl⟩ := List.getLast?_eq_some_iff.mp h
  rw [List.append_assoc, List.singleton_append, pairs_append_cons]; rfl

theorem pairs_head {P : Type} {l : List P} {a x : P} (h : l.head? = some a) : pairs (x :: l) = (x, a) :: pairs l := by
  cases l with
  | nil => simp at h
  | cons b l =>
    have e : b = a := by simpa using h
    subst e
    rfl

/-- the sides of the kept half -/
theorem mem_half {P : Type} {F : List P} {f0 f1 X Y : P} (h0 : F.head? = some f0) (h1 : F.getLast? = some f1) {e : P × P}
    (he : e ∈ cyclicPairs (X :: F ++ [Y])) : e = (X, f0) ∨ e ∈ pairs F ∨ e = (f1, Y) ∨ e = (Y, X) := by
  rw [← segs_cyclic] at he
  have e1 : chainSegs (X :: F ++ [Y]) true = pairs ((X :: (F ++ [Y])) ++ [X]) := by simp [chainSegs, circuit]
  have l1 : (X :: (F ++ [Y])).getLast? = some Y := by simp [List.getLast?_cons]
  have l2 : (F ++ [Y]).head? = some f0 := by simp [List.head?_append, h0]
  rw [e1, pairs_snoc l1, pairs_head l2, pairs_snoc h1] at he
  simp only [List.mem_append, List.mem_cons, List.not_mem_nil, or_false] at he
  tauto

/-- the sides of the whole polygon -/
theorem mem_whole {P : Type} {F B : List P} {f0 f1 b0 b1 : P} (h0 : F.head? = some f0) (h1 : F.getLast? = some f1) (g0 : B.head? = some b0)
    (g1 : B.getLast? = some b1) : (∀ e ∈ pairs F, e ∈ cyclicPairs (F ++ B)) ∧ (f1, b0) ∈ cyclicPairs (F ++ B) ∧ (b1, f0) ∈ cyclicPairs (F ++ B) := by
  have e1 : chainSegs (F ++ B) true = pairs ((F ++ B) ++ [f0]) := by simp [chainSegs, circuit, List.head?_append, h0]
  have l1 : (F ++ B).getLast? = some b1 := by simp [List.getLast?_append, g1]
  obtain ⟨F', rfl⟩ := List.getLast?_eq_some_iff.mp h1
  have e2 : pairs (F' ++ [f1] ++ B) = pairs (F' ++ [f1]) ++ (f1, b0) :: pairs B := by
    rw [List.append_assoc F', List.singleton_append, pairs_append_cons, pairs_head g0]
  rw [← segs_cyclic, e1, pairs_snoc l1, e2]
  refine ⟨fun e he => ?_, ?_, ?_⟩
  · simp only [List.mem_append]; exact .inl (.inl he)
  · simp
  · simp

theorem mem_of_pairs {P : Type} {l : List P} {s : P × P} (h : s ∈ pairs l) : s.1 ∈ l ∧ s.2 ∈ l := by
  obtain ⟨i, h1, h2⟩ := (Blmath.CH.mem_pairs l s).mp h
  exact ⟨List.mem_of_getElem? h1, List.mem_of_getElem? h2⟩

theorem hull_turn {l : List (V3 ℝ)} {n a b q : V3 ℝ} (h : InHull3 l q) (hl : ∀ p ∈ l, 0 ≤ turn n a b p) : 0 ≤ turn n a b q := by
  have e : ∀ p, turn n a b p = inner3 (cross3 n (vec3 a b)) p - inner3 (cross3 n (vec3 a b)) a := by
    intro p; simp only [Blmath.TM.turn, det3, inner3, cross3, vec3]; ring
  have := CX.hull_bound (w := scale3 (-1) (cross3 n (vec3 a b))) (k := -inner3 (cross3 n (vec3 a b)) a) h fun p hp => by
    have := hl p hp
    rw [e] at this
    rw [TM.inner_neg]; linarith
  rw [TM.inner_neg] at this
  rw [e]; linarith

theorem LeftLoop_rotate {n : V3 ℝ} {Q : List (V3 ℝ)} (h : LeftLoop n Q) (r : ℕ) : LeftLoop n (Q.rotate r) := by
  refine ⟨by simpa using h.size, List.nodup_rotate.mpr h.nodup, ?_⟩
  intro e he p hp
  rw [cyclicPairs_rotate, List.mem_rotate] at he
  exact h.left e he p (List.mem_rotate.mp hp)

/-- a crossing point is inside its side -/
theorem inner_point {pl : Plane ℝ} {a b X : V3 ℝ} (ha : 0 < height pl a) (hb : height pl b < 0) (hX : OnPlane pl X) (hs : OnSegment a b X) :
    ∃ t, 0 < t ∧ t < 1 ∧ X = along a t (vec3 a b) := by
  obtain ⟨t, t0, t1, rfl⟩ := hs
  rw [onPlane_iff, height_along, height_sub] at hX
  refine ⟨t, ?_, ?_, rfl⟩
  · rcases t0.eq_or_lt with rfl | h
    · simp at hX; linarith
    · exact h
  · rcases t1.eq_or_lt with rfl | h
    · linarith
    · exact h

theorem turn_from (n a b q : V3 ℝ) (t : ℝ) : turn n (along a t (vec3 a b)) a q = t * turn n b a q := by
  simp only [Blmath.TM.turn, along, vec3, det3, inner3, cross3]; ring

theorem turn_to (n a b q : V3 ℝ) (t : ℝ) : turn n a (along a t (vec3 a b)) q = t * turn n a b q := by
  simp only [Blmath.TM.turn, along, vec3, det3, inner3, cross3]; ring

theorem turn_at (n c d a b : V3 ℝ) (t : ℝ) : turn n c d (along a t (vec3 a b)) = (1 - t) * turn n c d a + t * turn n c d b := by
  simp only [Blmath.TM.turn, along, vec3, det3, inner3, cross3]; ring

/-- seen from two points of the plane, turns measure heights -/
theorem turn_height {n : V3 ℝ} {k : ℝ} {pl : Plane ℝ} {X Y f q : V3 ℝ} (hn : n ≠ zero3) (lX : inner3 n X = k) (lY : inner3 n Y = k)
    (lf : inner3 n f = k) (lq : inner3 n q = k) (hX : OnPlane pl X) (hY : OnPlane pl Y) :
    turn n Y X f * height pl q = turn n Y X q * height pl f := by
  have c := CX.cramer (l := pl.n) hn lY lX lf lq
  have s : turn n Y X f = turn n X f q + turn n f Y q + turn n Y X q := by
    simp only [Blmath.TM.turn, det3, inner3, cross3, vec3]; ring
  have hh : ∀ p, height pl p = inner3 pl.n p - inner3 pl.n pl.r0 := by
    intro p; simp only [height, inner3, vec3]; ring
  have hX : inner3 pl.n X = inner3 pl.n pl.r0 := by
    have : height pl X = 0 := hX
    rw [hh] at this; linarith
  have hY : inner3 pl.n Y = inner3 pl.n pl.r0 := by
    have : height pl Y = 0 := hY
    rw [hh] at this; linarith
  rw [hX, hY] at c
  rw [hh, hh, mul_sub, mul_sub, c, s]
  ring

theorem level_along {n a b : V3 ℝ} {k t : ℝ} (ha : inner3 n a = k) (hb : inner3 n b = k) : inner3 n (along a t (vec3 a b)) = k := by
  simp only [inner3, along, vec3] at *
  linear_combination (1 - t) * ha + t * hb

/-- the half of a convex polygon in front of a plane through two of its sides -/
theorem half {n : V3 ℝ} {k : ℝ} {F B : List (V3 ℝ)} {pl : Plane ℝ} {f0 f1 b0 b1 X Y : V3 ℝ} (hn : n ≠ zero3) (h : LeftLoop n (F ++ B))
    (hpl : ∀ q ∈ F ++ B, inner3 n q = k) (hF : ∀ q ∈ F, 0 < height pl q) (hB : ∀ q ∈ B, height pl q < 0) (h0 : F.head? = some f0)
    (h1 : F.getLast? = some f1) (g0 : B.head? = some b0) (g1 : B.getLast? = some b1) (hX : OnPlane pl X) (sX : OnSegment f0 b1 X)
    (hY : OnPlane pl Y) (sY : OnSegment f1 b0 Y) :
    LeftLoop n (X :: F ++ [Y]) ∧ ∀ q, InHull3 (X :: F ++ [Y]) q ↔ InHull3 (F ++ B) q ∧ 0 ≤ height pl q := by
  have mf0 : f0 ∈ F := List.mem_of_head? h0
  have mf1 : f1 ∈ F := List.mem_of_getLast? h1
  have mb0 : b0 ∈ B := List.mem_of_head? g0
  have mb1 : b1 ∈ B := List.mem_of_getLast? g1
  have inF : ∀ {q}, q ∈ F → q ∈ F ++ B := fun hq => List.mem_append_left _ hq
  have inB : ∀ {q}, q ∈ B → q ∈ F ++ B := fun hq => List.mem_append_right _ hq
  have ne : ∀ {a b}, a ∈ F → b ∈ B → a ≠ b := by
    rintro a b ha hb rfl
    exact absurd (hF a ha) (not_lt.mpr (hB a hb).le)
  obtain ⟨t, t0, t1, eX⟩ := inner_point (hF _ mf0) (hB _ mb1) hX sX
  obtain ⟨s, s0, s1, eY⟩ := inner_point (hF _ mf1) (hB _ mb0) hY sY
  obtain ⟨wF, w1, w2⟩ := mem_whole h0 h1 g0 g1
  have rd := CX.LeftLoop.round h
  have lX : inner3 n X = k := by rw [eX]; exact level_along (hpl _ (inF mf0)) (hpl _ (inB mb1))
  have lY : inner3 n Y = k := by rw [eY]; exact level_along (hpl _ (inF mf1)) (hpl _ (inB mb0))
  have hone : f0 = f1 → b0 = b1 → False := by
    rintro rfl rfl
    have nd := List.nodup_append.mp h.nodup
    have a1 := single nd.1 h0 h1
    have a2 := single nd.2.1 g0 g1
    have := h.size
    rw [a1, a2] at this
    simp at this
  have st := h.left
  -- `Y` is strictly inside the side of `X`, and the other way round
  have pY : 0 < turn n b1 f0 Y := by
    rw [eY, turn_at]
    by_cases e : f1 = f0
    · have hb : b0 ≠ b1 := fun e' => hone e.symm e'
      have := st _ w2 b0 (inB mb0) hb (ne mf0 mb0).symm
      have r := rd _ w2 f1 (inF mf1)
      exact add_pos_of_nonneg_of_pos (mul_nonneg (by linarith) r) (mul_pos s0 this)
    · have := st _ w2 f1 (inF mf1) (ne mf1 mb1) e
      have r := rd _ w2 b0 (inB mb0)
      exact add_pos_of_pos_of_nonneg (mul_pos (by linarith) this) (mul_nonneg s0.le r)
  have pX : 0 < turn n f1 b0 X := by
    rw [eX, turn_at]
    by_cases e : f0 = f1
    · have hb : b1 ≠ b0 := fun e' => hone e e'.symm
      have := st _ w1 b1 (inB mb1) (ne mf1 mb1).symm hb
      have r := rd _ w1 f0 (inF mf0)
      exact add_pos_of_nonneg_of_pos (mul_nonneg (by linarith) r) (mul_pos t0 this)
    · have := st _ w1 f0 (inF mf0) e (ne mf0 mb0)
      have r := rd _ w1 b1 (inB mb1)
      exact add_pos_of_pos_of_nonneg (mul_pos (by linarith) this) (mul_nonneg t0.le r)
  have pYX : 0 < turn n Y X f0 := by
    have : turn n Y X f0 = t * turn n b1 f0 Y := by
      rw [(turning n).cyc, eX, turn_from]
    rw [this]; exact mul_pos t0 pY
  have hXY : X ≠ Y := by
    rintro rfl
    have : turn n X X f0 = 0 := by simp only [Blmath.TM.turn, det3, inner3, cross3, vec3]; ring
    linarith
  have zX : height pl X = 0 := hX
  have zY : height pl Y = 0 := hY
  have loop : LeftLoop n (X :: F ++ [Y]) := by
    refine ⟨?_, ?_, ?_⟩
    · have : 0 < F.length := List.length_pos_of_mem mf0
      simp; omega
    · have nX : X ∉ F := fun hm => absurd (hF X hm) (by rw [zX]; exact lt_irrefl _)
      have nY : Y ∉ F := fun hm => absurd (hF Y hm) (by rw [zY]; exact lt_irrefl _)
      have nF := (List.nodup_append.mp h.nodup).1
      rw [List.cons_append, List.nodup_cons, List.mem_append, List.nodup_append]
      refine ⟨by simp [nX, hXY], nF, by simp, ?_⟩
      intro a ha b hb
      rw [List.mem_singleton] at hb
      rintro rfl
      exact nY (hb ▸ ha)
    · intro e he p hp e1 e2
      have hp : p = X ∨ p ∈ F ∨ p = Y := by simpa using hp
      show 0 < turn n e.1 e.2 p
      rcases mem_half h0 h1 he with rfl | hm | rfl | rfl
      · rcases hp with rfl | hp | rfl
        · exact absurd rfl e1
        · simp only at e2 ⊢
          rw [eX, turn_from]
          exact mul_pos t0 (st _ w2 p (inF hp) (ne hp mb1) e2)
        · simp only
          rw [eX, turn_from]
          exact mul_pos t0 pY
      · have hem := wF e hm
        have hE : e.1 ∈ F ∧ e.2 ∈ F := mem_of_pairs hm
        rcases hp with rfl | hp | rfl
        · rw [eX, turn_at]
          exact add_pos_of_nonneg_of_pos (mul_nonneg (by linarith) (rd _ hem _ (inF mf0)))
            (mul_pos t0 (st _ hem b1 (inB mb1) (ne hE.1 mb1).symm (ne hE.2 mb1).symm))
        · exact st _ hem p (inF hp) e1 e2
        · rw [eY, turn_at]
          exact add_pos_of_nonneg_of_pos (mul_nonneg (by linarith) (rd _ hem _ (inF mf1)))
            (mul_pos s0 (st _ hem b0 (inB mb0) (ne hE.1 mb0).symm (ne hE.2 mb0).symm))
      · rcases hp with rfl | hp | rfl
        · simp only
          rw [eY, turn_to]
          exact mul_pos s0 pX
        · simp only at e1 ⊢
          rw [eY, turn_to]
          exact mul_pos s0 (st _ w1 p (inF hp) e1 (ne hp mb0))
        · exact absurd rfl e2
      · rcases hp with rfl | hp | rfl
        · exact absurd rfl e2
        · have := turn_height hn lX lY (hpl _ (inF mf0)) (hpl _ (inF hp)) hX hY
          have h2 : 0 < turn n Y X p * height pl f0 := by
            rw [← this]; exact mul_pos pYX (hF p hp)
          exact CX.pos_left h2 (hF _ mf0).le
        · exact absurd rfl e1
  have lw : ∀ q ∈ X :: F ++ [Y], inner3 n q = k := by
    intro q hq
    have hq : q = X ∨ q ∈ F ∨ q = Y := by simpa using hq
    rcases hq with rfl | hq | rfl
    · exact lX
    · exact hpl q (inF hq)
    · exact lY
  refine ⟨loop, fun q => ⟨fun hq => ⟨?_, ?_⟩, fun hq => ?_⟩⟩
  · refine CX.hull_trans hq ?_
    intro p hp
    have hp : p = X ∨ p ∈ F ∨ p = Y := by simpa using hp
    rcases hp with rfl | hp | rfl
    · refine inHull_mix (inHull_self (inF mf0)) (inHull_self (inB mb1)) (a := 1 - t) (b := t) (by linarith) t0.le (by ring) ?_ ?_ ?_ <;>
        rw [eX] <;> simp only [along, vec3] <;> ring
    · exact inHull_self (inF hp)
    · refine inHull_mix (inHull_self (inF mf1)) (inHull_self (inB mb0)) (a := 1 - s) (b := s) (by linarith) s0.le (by ring) ?_ ?_ ?_ <;>
        rw [eY] <;> simp only [along, vec3] <;> ring
  · have hh : ∀ p, height pl p = inner3 pl.n p - inner3 pl.n pl.r0 := by
      intro p; simp only [height, inner3, vec3]; ring
    have := CX.hull_bound (w := scale3 (-1) pl.n) (k := -inner3 pl.n pl.r0) hq fun p hp => by
      have hp : p = X ∨ p ∈ F ∨ p = Y := by simpa using hp
      have : 0 ≤ height pl p := by
        rcases hp with rfl | hp | rfl
        · exact zX.ge
        · exact (hF p hp).le
        · exact zY.ge
      rw [hh] at this
      rw [TM.inner_neg]; linarith
    rw [TM.inner_neg] at this
    rw [hh]; linarith
  · obtain ⟨hq, hhq⟩ := hq
    have lq := CX.hull_level hq hpl
    have side : ∀ e ∈ cyclicPairs (F ++ B), 0 ≤ turn n e.1 e.2 q := fun e he => by
      exact hull_turn hq fun p hp => rd e he p hp
    refine CX.LeftLoop.solid hn loop lw lq fun e he => ?_
    rcases mem_half h0 h1 he with rfl | hm | rfl | rfl
    · simp only
      rw [eX, turn_from]
      exact mul_nonneg t0.le (side _ w2)
    · exact side e (wF e hm)
    · simp only
      rw [eY, turn_to]
      exact mul_nonneg s0.le (side _ w1)
    · have := turn_height hn lX lY (hpl _ (inF mf0)) lq hX hY
      have h2 : 0 ≤ turn n Y X q * height pl f0 := by
        rw [← this]; exact mul_nonneg pYX.le hhq
      exact nonneg_of_mul_nonneg_left h2 (hF _ mf0)

end CM

section cut
variable {n : V3 ℝ} {k : ℝ} {Q : List (V3 ℝ)} {pl : Plane ℝ}

/-- **C141.** A convex polygon with corners on both sides of the plane and none on it is cut.  Read from a suitable start its corners are
those in front, in order, followed by those behind.  The result is the open polyline of the corners in front, with a point of the plane
on the side before the first and on the side after the last.  Closed, it is again a convex polygon, and it bounds exactly the
part of the given polygon in front of the plane. -/
theorem C141_half (hn : n ≠ zero3) (h : ConvexLoop n Q) (hpl : ∀ q ∈ Q, inner3 n q = k) (hf : ∃ q ∈ Q, 0 < height pl q)
    (hb : ∃ q ∈ Q, height pl q < 0) (hoff : ∀ q ∈ Q, ¬ OnPlane pl q) :
    ∃ r F B f0 f1 b0 b1 X Y, Q.rotate r = F ++ B ∧ (∀ q ∈ F, 0 < height pl q) ∧ (∀ q ∈ B, height pl q < 0) ∧
      F.head? = some f0 ∧ F.getLast? = some f1 ∧ B.head? = some b0 ∧ B.getLast? = some b1 ∧
      OnPlane pl X ∧ OnSegment f0 b1 X ∧ OnPlane pl Y ∧ OnSegment f1 b0 Y ∧
      (poly Q true).cutByPlane pl = .ok (poly (X :: F ++ [Y]) false) ∧ ConvexLoop n (X :: F ++ [Y]) ∧
      ∀ q, InHull3 (X :: F ++ [Y]) q ↔ InHull3 Q q ∧ 0 ≤ height pl q := by
  classical
  have hon : onCount pl Q = 0 := List.countP_eq_zero.mpr (by intro q hq; simpa using hoff q hq)
  have hc := C141_count hn h hpl hf hb
  rw [hon] at hc
  obtain ⟨r, F, B, f0, f1, b0, b1, S, E, e, hF, hB, h0, h1, g0, g1, hS, hE, hcut⟩ := C40_cut pl Q hc hb
  have hmem : ∀ q, q ∈ Q ↔ q ∈ F ++ B := fun q => by rw [← e, List.mem_rotate]
  have hF' : ∀ q ∈ F, 0 < height pl q := fun q hq =>
    lt_of_le_of_ne (hF q hq) (Ne.symm (hoff q ((hmem q).mpr (List.mem_append_left _ hq))))
  have mf0 : f0 ∈ F := List.mem_of_head? h0
  have mf1 : f1 ∈ F := List.mem_of_getLast? h1
  rcases hS with ⟨hS, _⟩ | ⟨_, X, rfl, hX, sX⟩
  · exact absurd hS (hF' f0 mf0).ne'
  rcases hE with ⟨hE, _⟩ | ⟨_, Y, rfl, hY, sY⟩
  · exact absurd hE (hF' f1 mf1).ne'
  obtain ⟨m, j, hm, hl, hp, hmn⟩ := oriented hn h hpl
  have hl' := LeftLoop_rotate hl r
  rw [e] at hl'
  have hh := half hm hl' (fun q hq => hp q ((hmem q).mpr hq)) hF' hB h0 h1 g0 g1 hX sX hY sY
  refine ⟨r, F, B, f0, f1, b0, b1, X, Y, e, hF', hB, h0, h1, g0, g1, hX, sX, hY, sY, hcut, ?_, ?_⟩
  · rcases hmn with rfl | rfl
    · exact .inl hh.1
    · exact .inr hh.1
  · intro q
    rw [hh.2]
    have : InHull3 (F ++ B) q ↔ InHull3 Q q :=
      ⟨fun h => CX.hull_trans h fun p hp => inHull_self ((hmem p).mpr hp), fun h => CX.hull_trans h fun p hp => inHull_self ((hmem p).mp hp)⟩
    rw [this]

/-- **C141.** A convex polygon behind the plane but for one corner on it is cut down to that corner. -/
theorem C141_corner (hn : n ≠ zero3) (h : ConvexLoop n Q) (hpl : ∀ q ∈ Q, inner3 n q = k) (hs : ∀ q ∈ Q, height pl q ≤ 0)
    (h1 : onCount pl Q = 1) : ∃ q ∈ Q, OnPlane pl q ∧ (poly Q true).cutByPlane pl = .ok (poly [q] false) := by
  classical
  have hlen := h.elim (fun h => h.size) (fun h => h.size)
  have hb : ∃ q ∈ Q, height pl q < 0 := by
    by_contra hc
    push Not at hc
    have : onCount pl Q = Q.length := List.countP_eq_length.mpr fun q hq => by
      simpa using (show OnPlane pl q from le_antisymm (hs q hq) (hc q hq))
    omega
  obtain ⟨b, hbm, hb0⟩ := hb
  have hc := C141_count_side hn h hpl (.inr hs) ⟨b, hbm, hb0.ne⟩
  rw [h1] at hc
  obtain ⟨r, F, B, f0, f1, b0, b1, S, E, e, hF, hB, g0, g1, _, _, hS, hE, hcut⟩ := C40_cut pl Q (by simpa using hc) ⟨b, hbm, hb0⟩
  have hmem : ∀ q, q ∈ Q ↔ q ∈ F ++ B := fun q => by rw [← e, List.mem_rotate]
  have hF0 : ∀ q ∈ F, OnPlane pl q := fun q hq => le_antisymm (hs q ((hmem q).mpr (List.mem_append_left _ hq))) (hF q hq)
  have hcnt : onCount pl Q = F.length := by
    unfold onCount
    rw [← (List.rotate_perm Q r).countP_eq, e, List.countP_append, List.countP_eq_length.mpr (fun q hq => by simpa using hF0 q hq),
      List.countP_eq_zero.mpr (by intro q hq; simpa using (show ¬ OnPlane pl q from (hB q hq).ne))]
    rfl
  obtain ⟨f, rfl⟩ := List.length_eq_one_iff.mp (hcnt.symm.trans h1)
  have e0 : f = f0 := by simpa using g0
  have e1 : f = f1 := by simpa using g1
  subst e0
  have hf := hF0 f (by simp)
  refine ⟨f, (hmem f).mpr (by simp), hf, ?_⟩
  have eS : S = [] := by
    rcases hS with ⟨_, h⟩ | ⟨h, _⟩
    · exact h
    · exact absurd hf h.ne'
  have eE : E = [] := by
    rcases hE with ⟨_, h⟩ | ⟨h, _⟩
    · exact h
    · rw [← e1] at h; exact absurd hf h.ne'
  rw [hcut, eS, eE]
  rfl

/-- **C141.** A convex polygon in front of the plane but for one corner on it raises IndexError. -/
theorem C141_touching (hn : n ≠ zero3) (h : ConvexLoop n Q) (hpl : ∀ q ∈ Q, inner3 n q = k) (hs : ∀ q ∈ Q, 0 ≤ height pl q)
    (h1 : onCount pl Q = 1) : (poly Q true).cutByPlane pl = .error .IndexError := by
  classical
  have hlen := h.elim (fun h => h.size) (fun h => h.size)
  have hb : ∃ q ∈ Q, ¬ OnPlane pl q := by
    by_contra hc
    push Not at hc
    have : onCount pl Q = Q.length := List.countP_eq_length.mpr fun q hq => by simpa using hc q hq
    omega
  have hc := C141_count_side hn h hpl (.inl hs) hb
  rw [h1] at hc
  exact C40_touching pl Q (by simpa using hc) hs

/-- the cases in which a convex polygon can be cut -/
def Cuttable (pl : Plane ℝ) (Q : List (V3 ℝ)) : Prop :=
  ((∃ q ∈ Q, 0 < height pl q) ∧ (∃ q ∈ Q, height pl q < 0) ∧ ∀ q ∈ Q, ¬ OnPlane pl q) ∨
  ((∀ q ∈ Q, height pl q ≤ 0) ∧ onCount pl Q = 1)

/-- **C141.** In all other cases a convex polygon raises ValueError: nothing on both sides or on the plane, a corner on the plane and others on
both sides, or a whole side on the plane. -/
theorem C141_error (hn : n ≠ zero3) (h : ConvexLoop n Q) (hpl : ∀ q ∈ Q, inner3 n q = k) (hc : ¬ Cuttable pl Q)
    (ht : ¬ ((∀ q ∈ Q, 0 ≤ height pl q) ∧ onCount pl Q = 1)) : (poly Q true).cutByPlane pl = .error .ValueError := by
  classical
  have hlen := h.elim (fun h => h.size) (fun h => h.size)
  have hz : onCount pl Q = 0 ↔ ∀ q ∈ Q, ¬ OnPlane pl q := by
    unfold onCount
    rw [List.countP_eq_zero]
    simp
  apply C40_count
  by_cases hf : ∃ q ∈ Q, 0 < height pl q
  · by_cases hb : ∃ q ∈ Q, height pl q < 0
    · rw [C141_count hn h hpl hf hb]
      have : onCount pl Q ≠ 0 := fun h0 => hc (.inl ⟨hf, hb, hz.mp h0⟩)
      omega
    · push Not at hb
      obtain ⟨f, hfm, hf⟩ := hf
      rw [C141_count_side hn h hpl (.inl hb) ⟨f, hfm, hf.ne'⟩]
      have : onCount pl Q ≠ 1 := fun h1 => ht ⟨hb, h1⟩
      split <;> omega
  · push Not at hf
    by_cases hb : ∃ q ∈ Q, height pl q < 0
    · obtain ⟨b, hbm, hb⟩ := hb
      rw [C141_count_side hn h hpl (.inr hf) ⟨b, hbm, hb.ne⟩]
      have : onCount pl Q ≠ 1 := fun h1 => hc (.inr ⟨hf, h1⟩)
      split <;> omega
    · push Not at hb
      rw [C141_count_in fun q hq => le_antisymm (hf q hq) (hb q hq)]
      omega

/-- **C141.** `cut_by_plane` returns something for a convex polygon exactly if the plane passes between its corners, or touches it at one
corner with the rest behind. -/
theorem C141_iff (hn : n ≠ zero3) (h : ConvexLoop n Q) (hpl : ∀ q ∈ Q, inner3 n q = k) :
    (∃ p, (poly Q true).cutByPlane pl = .ok p) ↔ Cuttable pl Q := by
  constructor
  · rintro ⟨p, hp⟩
    by_contra hc
    by_cases ht : (∀ q ∈ Q, 0 ≤ height pl q) ∧ onCount pl Q = 1
    · rw [C141_touching hn h hpl ht.1 ht.2] at hp; cases hp
    · rw [C141_error hn h hpl hc ht] at hp; cases hp
  · rintro (⟨hf, hb, ho⟩ | ⟨hs, h1⟩)
    · obtain ⟨_, _, _, _, _, _, _, _, _, _, _, _, _, _, _, _, _, _, _, _, hcut, _⟩ := C141_half hn h hpl hf hb ho
      exact ⟨_, hcut⟩
    · obtain ⟨_, _, _, hcut⟩ := C141_corner hn h hpl hs h1
      exact ⟨_, hcut⟩

/-- **C141.** Cutting with the plane and with the flipped plane gives two convex polygons that together make up the given one and have only
points of the plane in common. -/
theorem C141_halves (hu : UnitNormal pl) (hn : n ≠ zero3) (h : ConvexLoop n Q) (hpl : ∀ q ∈ Q, inner3 n q = k)
    (hf : ∃ q ∈ Q, 0 < height pl q) (hb : ∃ q ∈ Q, height pl q < 0) (hoff : ∀ q ∈ Q, ¬ OnPlane pl q) :
    ∃ pl' w w', pl.flipped = .ok pl' ∧ (poly Q true).cutByPlane pl = .ok (poly w false) ∧
      (poly Q true).cutByPlane pl' = .ok (poly w' false) ∧ ConvexLoop n w ∧ ConvexLoop n w' ∧
      (∀ q, InHull3 Q q ↔ InHull3 w q ∨ InHull3 w' q) ∧ ∀ q, InHull3 w q ∧ InHull3 w' q ↔ InHull3 Q q ∧ OnPlane pl q := by
  have hneg : ∀ q, height ⟨pl.r0, scale3 (-1) pl.n⟩ q = -height pl q := by
    intro q; simp only [height, inner3, vec3, scale3]; ring
  obtain ⟨_, F, _, _, _, _, _, X, Y, _, _, _, _, _, _, _, _, _, _, _, c1, l1, i1⟩ := C141_half hn h hpl hf hb hoff
  obtain ⟨_, F', _, _, _, _, _, X', Y', _, _, _, _, _, _, _, _, _, _, _, c2, l2, i2⟩ :=
    C141_half (pl := ⟨pl.r0, scale3 (-1) pl.n⟩) hn h hpl
      (by obtain ⟨q, hq, hh⟩ := hb; exact ⟨q, hq, by rw [hneg]; linarith⟩)
      (by obtain ⟨q, hq, hh⟩ := hf; exact ⟨q, hq, by rw [hneg]; linarith⟩)
      (by intro q hq; rw [onPlane_iff, hneg, neg_eq_zero]; exact hoff q hq)
  refine ⟨_, _, _, flipped_eq pl hu, c1, c2, l1, l2, ?_, ?_⟩
  · intro q
    rw [i1, i2, hneg]
    constructor
    · intro hq
      rcases le_total 0 (height pl q) with h | h
      · exact .inl ⟨hq, h⟩
      · exact .inr ⟨hq, by linarith⟩
    · rintro (h | h) <;> exact h.1
  · intro q
    rw [i1, i2, hneg, onPlane_iff]
    constructor
    · rintro ⟨⟨h1, h2⟩, _, h3⟩
      exact ⟨h1, by linarith⟩
    · rintro ⟨h1, h2⟩
      rw [h2]
      exact ⟨⟨h1, le_rfl⟩, h1, by simp⟩

/-- **C141.** `convexify` and then `cut_by_plane`, for vertices in a plane: if the hull has at least three corners and the cutting plane has
vertices on both sides and none on it, the result bounds the part of the convex hull of the vertices in front of the plane. -/
theorem C141_convexify (env : HullEnv ℝ) (v : List (V3 ℝ)) (want : Bool) (na : NormalArg ℝ) (c : ℝ)
    (hv : 2 ≤ v.length) (hn : UsesNormal env v na n) (hn0 : n ≠ zero3) (hpl : ∀ p ∈ v, inner3 n p = c) (idx : List ℕ)
    (hh : env.hull (v.map (dropDim (argmax3 (n.map npAbs)))) = .ok idx)
    (hs : HullSpec (v.map (dropDim (argmax3 (n.map npAbs)))) idx) (h3 : 3 ≤ idx.length)
    (hf : ∃ q ∈ v, 0 < height pl q) (hb : ∃ q ∈ v, height pl q < 0) (hoff : ∀ q ∈ v, ¬ OnPlane pl q) :
    ∃ qs w, convexify env (poly v true) false want na = .ok (poly qs true, if want then some idx else none) ∧
      (poly qs true).cutByPlane pl = .ok (poly w false) ∧ ConvexLoop n w ∧ ∀ q, InHull3 w q ↔ InHull3 v q ∧ 0 ≤ height pl q := by
  obtain ⟨qs, e, hp, hull⟩ := C57_planar env v true want na n c hv hn hn0 hpl idx hh hs
  have hsub : ∀ q ∈ qs, q ∈ v := by
    intro q hq
    have : some q ∈ qs.map some := List.mem_map_of_mem hq
    rw [hp, List.mem_map] at this
    obtain ⟨i, _, hi⟩ := this
    exact List.mem_of_getElem? hi
  have hlen : qs.length = idx.length := by
    have := congrArg List.length hp
    simpa using this
  have hl := CX.loop_of_hull hn0 hpl hull hsub (by omega)
  have hhgt : ∀ p, height pl p = inner3 pl.n p - inner3 pl.n pl.r0 := by
    intro p; simp only [height, inner3, vec3]; ring
  have hf' : ∃ q ∈ qs, 0 < height pl q := by
    by_contra hc
    push Not at hc
    obtain ⟨q, hq, hpos⟩ := hf
    have := CX.hull_bound (w := pl.n) (k := inner3 pl.n pl.r0) (hull.covers q hq) fun p hp => by
      have := hc p hp
      rw [hhgt] at this; linarith
    rw [hhgt] at hpos
    linarith
  have hb' : ∃ q ∈ qs, height pl q < 0 := by
    by_contra hc
    push Not at hc
    obtain ⟨q, hq, hpos⟩ := hb
    have := CX.hull_bound (w := scale3 (-1) pl.n) (k := -inner3 pl.n pl.r0) (hull.covers q hq) fun p hp => by
      have := hc p hp
      rw [hhgt] at this
      rw [TM.inner_neg]; linarith
    rw [hhgt] at hpos
    rw [TM.inner_neg] at this
    linarith
  obtain ⟨_, F, _, _, _, _, _, X, Y, _, _, _, _, _, _, _, _, _, _, _, c1, l1, i1⟩ :=
    C141_half hn0 hl (fun q hq => hpl q (hsub q hq)) hf' hb' fun q hq => hoff q (hsub q hq)
  refine ⟨qs, _, e, c1, l1, fun q => ?_⟩
  rw [i1]
  have : InHull3 qs q ↔ InHull3 v q :=
    ⟨fun h => CX.hull_trans h fun p hp => inHull_self (hsub p hp), fun h => CX.hull_trans h hull.covers⟩
  rw [this]

end cut

namespace CM

/-- a triangle -/
def tri : List (V3 ℝ) := [⟨-1, 0, 0⟩, ⟨1, 0, 0⟩, ⟨0, 2, 0⟩]

theorem tri_loop : ConvexLoop ⟨0, 0, 1⟩ tri := by
  refine .inl ⟨by simp [tri], ?_, ?_⟩
  · simp [tri, V3.ext_iff]
    norm_num
  · have e : cyclicPairs tri = [(⟨-1, 0, 0⟩, ⟨1, 0, 0⟩), (⟨1, 0, 0⟩, ⟨0, 2, 0⟩), (⟨0, 2, 0⟩, ⟨-1, 0, 0⟩)] := rfl
    rw [e]
    intro s hs p hp h1 h2
    simp only [List.mem_cons, List.not_mem_nil, or_false] at hs
    simp only [tri, List.mem_cons, List.not_mem_nil, or_false] at hp
    rcases hs with rfl | rfl | rfl <;> rcases hp with rfl | rfl | rfl <;>
      first
        | exact absurd rfl h1
        | exact absurd rfl h2
        | (simp only [det3, inner3, cross3, vec3]; norm_num; done)

theorem tri_level : ∀ q ∈ tri, inner3 ⟨0, 0, 1⟩ q = 0 := by
  intro q hq
  simp only [tri, List.mem_cons, List.not_mem_nil, or_false] at hq
  rcases hq with rfl | rfl | rfl <;> simp [inner3]

end CM

/-- **C141**, used on the triangle (-1, 0), (1, 0), (0, 2): between its corners it is cut, through a corner with the others on both sides it is a
ValueError, at the last corner before it has passed the plane it is that corner, and touched from the other side it is an
IndexError. -/
theorem C141_witness :
    ConvexLoop ⟨0, 0, 1⟩ tri ∧ (∀ q ∈ tri, inner3 ⟨0, 0, 1⟩ q = 0) ∧
    (∃ w, (poly tri true).cutByPlane ⟨⟨0, 1, 0⟩, ⟨0, -1, 0⟩⟩ = .ok (poly w false) ∧
      ∀ q, InHull3 w q ↔ InHull3 tri q ∧ q.y ≤ 1) ∧
    (poly tri true).cutByPlane ⟨⟨0, 0, 0⟩, ⟨1, 0, 0⟩⟩ = .error .ValueError ∧
    (poly tri true).cutByPlane ⟨⟨1, 0, 0⟩, ⟨1, 0, 0⟩⟩ = .ok (poly [⟨1, 0, 0⟩] false) ∧
    (poly tri true).cutByPlane ⟨⟨-1, 0, 0⟩, ⟨1, 0, 0⟩⟩ = .error .IndexError := by
  classical
  have hn : (⟨0, 0, 1⟩ : V3 ℝ) ≠ zero3 := by
    intro h
    have := congrArg V3.z h
    simp [zero3] at this
  refine ⟨tri_loop, tri_level, ?_, ?_, ?_, ?_⟩
  · obtain ⟨_, F, _, _, _, _, _, X, Y, _, _, _, _, _, _, _, _, _, _, _, c1, l1, i1⟩ :=
      C141_half (pl := ⟨⟨0, 1, 0⟩, ⟨0, -1, 0⟩⟩) hn tri_loop tri_level
        ⟨⟨1, 0, 0⟩, by simp [tri], by simp [height, inner3, vec3]⟩
        ⟨⟨0, 2, 0⟩, by simp [tri], by simp only [height, inner3, vec3]; norm_num⟩
        (by
          intro q hq
          simp only [tri, List.mem_cons, List.not_mem_nil, or_false] at hq
          rcases hq with rfl | rfl | rfl <;> simp only [onPlane_iff, height, inner3, vec3] <;> norm_num)
    refine ⟨_, c1, fun q => ?_⟩
    rw [i1]
    refine and_congr_right fun _ => ?_
    simp only [height, inner3, vec3]
    constructor <;> intro h <;> linarith
  · refine C141_error hn tri_loop tri_level ?_ ?_
    · rintro (⟨_, _, h⟩ | ⟨h, _⟩)
      · exact h ⟨0, 2, 0⟩ (by simp [tri]) (by simp [onPlane_iff, height, inner3, vec3])
      · have := h ⟨1, 0, 0⟩ (by simp [tri])
        simp only [height, inner3, vec3] at this
        norm_num at this
    · rintro ⟨h, _⟩
      have := h ⟨-1, 0, 0⟩ (by simp [tri])
      simp only [height, inner3, vec3] at this
      norm_num at this
  · obtain ⟨q, hq, ho, hc⟩ := C141_corner (pl := ⟨⟨1, 0, 0⟩, ⟨1, 0, 0⟩⟩) hn tri_loop tri_level
      (by
        intro q hq
        simp only [tri, List.mem_cons, List.not_mem_nil, or_false] at hq
        rcases hq with rfl | rfl | rfl <;> simp only [height, inner3, vec3] <;> norm_num)
      (by
        simp only [onCount, tri, List.countP_cons, List.countP_nil, onPlane_iff, height, inner3, vec3]
        norm_num)
    simp only [tri, List.mem_cons, List.not_mem_nil, or_false] at hq
    rcases hq with rfl | rfl | rfl
    · simp only [onPlane_iff, height, inner3, vec3] at ho; norm_num at ho
    · exact hc
    · simp only [onPlane_iff, height, inner3, vec3] at ho; norm_num at ho
  · refine C141_touching hn tri_loop tri_level ?_ ?_
    · intro q hq
      simp only [tri, List.mem_cons, List.not_mem_nil, or_false] at hq
      rcases hq with rfl | rfl | rfl <;> simp only [height, inner3, vec3] <;> norm_num
    · simp only [onCount, tri, List.countP_cons, List.countP_nil, onPlane_iff, height, inner3, vec3]
      norm_num

/-- **C141**, the parity statements used: a zigzag from one side to the other meets the plane three times, one that comes back twice. -/
theorem C141_parity_witness :
    (∀ q ∈ ([⟨-1, 0, 0⟩, ⟨1, 1, 0⟩, ⟨-1, 2, 0⟩, ⟨1, 3, 0⟩] : List (V3 ℝ)), ¬ OnPlane ⟨⟨0, 0, 0⟩, ⟨1, 0, 0⟩⟩ q) ∧
    Odd (meetCount ⟨⟨0, 0, 0⟩, ⟨1, 0, 0⟩⟩ [⟨-1, 0, 0⟩, ⟨1, 1, 0⟩, ⟨-1, 2, 0⟩, ⟨1, 3, 0⟩] false) ∧
    (poly ([⟨-1, 0, 0⟩, ⟨1, 1, 0⟩, ⟨-1, 2, 0⟩] : List (V3 ℝ)) false).cutByPlane ⟨⟨0, 0, 0⟩, ⟨1, 0, 0⟩⟩ = .error .ValueError := by
  have h : ∀ q ∈ ([⟨-1, 0, 0⟩, ⟨1, 1, 0⟩, ⟨-1, 2, 0⟩, ⟨1, 3, 0⟩] : List (V3 ℝ)), ¬ OnPlane ⟨⟨0, 0, 0⟩, ⟨1, 0, 0⟩⟩ q := by
    intro q hq
    simp only [List.mem_cons, List.not_mem_nil, or_false] at hq
    rcases hq with rfl | rfl | rfl | rfl <;> simp [onPlane_iff, height, inner3, vec3]
  refine ⟨h, ?_, ?_⟩
  · rw [C141_odd _ _ h ⟨-1, 0, 0⟩ ⟨1, 3, 0⟩ rfl rfl]
    exact .inr ⟨by simp [height, inner3, vec3], by simp [height, inner3, vec3]⟩
  · exact C141_same_side _ _ (fun q hq => h q (by
      simp only [List.mem_cons, List.not_mem_nil, or_false] at hq ⊢; tauto)) ⟨-1, 0, 0⟩ ⟨-1, 2, 0⟩ rfl rfl
      (by simp [height, inner3, vec3])

end Blmath.Props
