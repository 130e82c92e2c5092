import Verif.Proofs.Chord
import Verif.Proofs.MeshSlice
import Verif.Props.MeshSlice
import Verif.Spec.VertexSlice

/-!
The segments of the polylines when vertices of the mesh may lie on the plane.
-/

namespace Blmath.VS
open Blmath.Geometry Blmath.Spec Blmath.CH Blmath.Props Graph

/-! ### graphs -/

/-- how often the list has the edge between `a` and `b` -/
def cnt (a b : ℕ) (l : List (ℕ × ℕ)) : ℕ := (l.map fun e => isEdge a b e.1 e.2).sum

theorem cnt_append (a b : ℕ) (l l' : List (ℕ × ℕ)) : cnt a b (l ++ l') = cnt a b l + cnt a b l' := by
  simp [cnt]

theorem cnt_perm {a b : ℕ} {l l' : List (ℕ × ℕ)} (h : l.Perm l') : cnt a b l = cnt a b l' :=
  (h.map _).sum_eq

theorem uses_eq_cnt (a b : ℕ) : ∀ p : List ℕ, uses a b p = cnt a b (pairs p)
  | [] => rfl
  | [_] => rfl
  | x :: y :: l => by rw [uses, uses_eq_cnt a b (y :: l), pairs]; simp [cnt]

theorem pairs_snoc {P : Type} : ∀ (l : List P) (y z : P), l.getLast? = some y → pairs (l ++ [z]) = pairs l ++ [(y, z)]
  | [], y, z, h => by simp at h
  | [a], y, z, h => by simp at h; subst h; rfl
  | a :: b :: r, y, z, h => by
    rw [List.cons_append, List.cons_append, pairs, pairs, ← List.cons_append, pairs_snoc (b :: r) y z (by simpa using h)]
    rfl

variable {α : Type} [Num α] [EqNum α]

theorem last_related {β γ : Type} {R : β → γ → Prop} {l : List β} {l' : List γ} (h : List.Forall₂ R l l') :
    ∀ {y}, l.getLast? = some y → ∃ z, l'.getLast? = some z ∧ R y z := by
  induction h with
  | nil => intro y h; simp at h
  | @cons a b l l' hab h ih =>
    intro y hy
    cases h with
    | nil => simp at hy; subst hy; exact ⟨b, rfl, hab⟩
    | cons h1 h2 =>
      obtain ⟨z, hz, hz'⟩ := ih (by simpa using hy)
      exact ⟨z, by simpa using hz, hz'⟩

/-- the segments of one component are those of its path, whether it is closed or not -/
theorem component_segs (verts : List (V3 α)) (p : List ℕ) (hlt : ∀ i ∈ p, i < verts.length) (h2 : 2 ≤ p.length) :
    ∃ c el, component verts p = .ok c ∧ (c.v ≠ [] ∧ (c.closed = false → c.v.head? ≠ c.v.getLast?)) ∧
      (c.closed = false → ∃ x y, p.head? = some x ∧ p.getLast? = some y ∧ x ≠ y ∧ verts[x]? = c.v.head? ∧
        verts[y]? = c.v.getLast?) ∧
      (c.closed = true → ∀ x y, p.head? = some x → p.getLast? = some y → verts[x]? = verts[y]?) ∧ el.Perm (pairs p) ∧
      List.Forall₂ (fun (e : ℕ × ℕ) (s : V3 α × V3 α) => verts[e.1]? = some s.1 ∧ verts[e.2]? = some s.2) el
        (chainSegs c.v c.closed) := by
  match p, h2, hlt with
  | x :: t0 :: r, _, hlt =>
    obtain ⟨y, hy⟩ : ∃ y, (x :: t0 :: r).getLast? = some y := Option.isSome_iff_exists.mp (by simp)
    obtain ⟨cv, hcv, hc1, hc2⟩ := component_ok verts (x :: t0 :: r) hlt x y rfl hy
    by_cases hxy : verts[x]? = verts[y]?
    · refine ⟨⟨cv.tail, true⟩, pairs (t0 :: r) ++ [(x, t0)], hc1 hxy, ⟨?_, by simp⟩, by simp, ?_, ?_, ?_⟩
      · cases hcv with
        | cons _ h => cases h with
          | cons _ _ => simp
      · intro _ x' y' hx' hy'
        rw [hy] at hy'
        rw [← Option.some.inj hy', ← Option.some.inj hx']
        exact hxy
      · rw [pairs]
        exact List.perm_append_comm
      · cases hcv with
        | @cons _ q _ w hq h =>
          obtain ⟨z, hz, hz'⟩ := last_related h (y := y) (by simpa using hy)
          cases h with
          | @cons _ q0 _ w h0 h =>
            simp only [List.tail_cons, chainSegs, circuit, if_true, List.head?_cons, Option.toList_some]
            rw [pairs_snoc _ z q0 hz]
            have hw : List.Forall₂ (fun (i : ℕ) (q : V3 α) => verts[i]? = some q) (t0 :: r) (q0 :: w) := .cons h0 h
            have hl : List.Forall₂ (fun (e : ℕ × ℕ) (s : V3 α × V3 α) => verts[e.1]? = some s.1 ∧ verts[e.2]? = some s.2)
                [(x, t0)] [(z, q0)] := .cons ⟨hxy.trans hz', h0⟩ .nil
            exact List.rel_append (forall₂_pairs hw) hl
    · refine ⟨⟨cv, false⟩, pairs (x :: t0 :: r), hc2 hxy, ⟨?_, fun _ hh => ?_⟩, fun _ => ?_, by simp, List.Perm.refl _, ?_⟩
      · cases hcv; simp
      · obtain ⟨z, hz, hz'⟩ := last_related hcv hy
        cases hcv with
        | cons hq _ =>
          rw [hz, List.head?_cons] at hh
          exact hxy (hq.trans (hh.trans hz'.symm))
      · obtain ⟨z, hz, hz'⟩ := last_related hcv hy
        refine ⟨x, y, rfl, hy, fun h => hxy (by rw [h]), ?_, hz'.trans hz.symm⟩
        cases hcv with
        | cons hq _ => exact hq
      · simp only [chainSegs, circuit, Bool.false_eq_true, if_false, List.append_nil]
        exact forall₂_pairs hcv

/-- one call of `pop_euler_path` uses the edges it removes once each -/
theorem pop_uses (pk : Picker) (ko : KeyOrder) (g : Graph) (hg : GoodGraph g.d) (hne : g.d ≠ [])
    (h2 : ∀ v, (adj g.d v).card ≤ 2) :
    ∃ p g', popEulerPath pk ko g = .ok (some p, g') ∧ GoodGraph g'.d ∧ entries g'.d < entries g.d ∧
      2 ≤ p.length ∧ (∀ v ∈ p, adj g.d v ≠ ∅) ∧ (∀ a b, ind (adj g.d) a b = ind (adj g'.d) a b + uses a b p) ∧
      (∀ v, adj g'.d v = ∅ ∨ adj g'.d v = adj g.d v) ∧
      (∀ x y, p.head? = some x → p.getLast? = some y → x ≠ y → (adj g.d x).card = 1 ∧ (adj g.d y).card = 1) ∧
      ∀ x, (adj g.d x).card = 1 → adj g'.d x = ∅ → ∃ y, y ≠ x ∧ adj g.d y ≠ ∅ ∧
        ((p.head? = some x ∧ p.getLast? = some y) ∨ (p.head? = some y ∧ p.getLast? = some x)) := by
  obtain ⟨s, h1, hstart, h3⟩ := popEulerPath_start pk ko g hg hne
  obtain ⟨t, ht⟩ : ∃ t, ∀ v, Reach (adj g.d) s v → (Odd (adj g.d v).card ↔ OneOf (v = s) (v = t)) := by
    rcases hstart with h | h
    · have : (adj g.d s).card = 1 := by
        have := h2 s
        rw [Nat.odd_iff] at h
        omega
      exact odd_partner g.d hg h2 s this
    · refine ⟨s, ?_⟩
      intro v _
      rw [← Nat.not_even_iff_odd]
      simp [h v, OneOf]
  obtain ⟨p, d', e1, e2⟩ := euler_from g.d hg s t ht pk 0
  obtain ⟨p', d'', e1', e3, e4, e5, e6, e7⟩ := euler_weak g.d hg s h1 pk 0
  rw [e1] at e1'
  injection e1' with e1'
  injection e1' with hp hd
  subst hp hd
  refine ⟨p.reverse, ⟨g.size, d'⟩, ?_, e3, e4, ?_, ?_, ?_, ?_, ?_, ?_⟩
  · rw [h3, e1]; rfl
  · rw [List.length_reverse]
    omega
  · intro v hv
    rcases Relation.ReflTransGen.cases_tail ((e5 v).mp (List.mem_reverse.mp hv)) with h | ⟨b, _, hb⟩
    · rw [h]; exact h1
    · exact Finset.ne_empty_of_mem (hg.symm _ _ hb)
  · intro a b; rw [uses_reverse]; exact e2.edges a b
  · intro v
    simp only [e7 v]
    split
    · exact Or.inl rfl
    · exact Or.inr rfl
  · intro x y hx hy hxy
    rw [List.head?_reverse, e2.oldest] at hx
    rw [List.getLast?_reverse, e2.newest] at hy
    injection hx with hx
    injection hy with hy
    subst hx hy
    have one : ∀ v ∈ p, Odd (adj g.d v).card → (adj g.d v).card = 1 := by
      intro v _ h
      have := h2 v
      rw [Nat.odd_iff] at h
      omega
    have ms : s ∈ p := List.mem_of_head? e2.newest
    have mt : t ∈ p := List.mem_of_getLast? e2.oldest
    refine ⟨one t mt ((ht t ((e5 t).mp mt)).mpr ?_), one s ms ((ht s ((e5 s).mp ms)).mpr ?_)⟩
    · exact Or.inr ⟨hxy, rfl⟩
    · exact Or.inl ⟨rfl, Ne.symm hxy⟩
  · intro x hx hx'
    have hr : Reach (adj g.d) s x := by
      by_contra hn
      simp only [e7 x, if_neg hn] at hx'
      rw [hx'] at hx
      simp at hx
    rw [List.head?_reverse, List.getLast?_reverse, e2.oldest, e2.newest]
    have used : ∀ v ∈ p, adj g.d v ≠ ∅ := by
      intro v hv
      rcases Relation.ReflTransGen.cases_tail ((e5 v).mp hv) with h | ⟨b, _, hb⟩
      · rw [h]; exact h1
      · exact Finset.ne_empty_of_mem (hg.symm _ _ hb)
    rcases (ht x hr).mp (by rw [hx]; exact odd_one) with ⟨a, b⟩ | ⟨a, b⟩
    · subst a
      exact ⟨t, Ne.symm b, used t (List.mem_of_getLast? e2.oldest), Or.inr ⟨rfl, rfl⟩⟩
    · subst b
      exact ⟨s, Ne.symm a, used s (List.mem_of_head? e2.newest), Or.inl ⟨rfl, rfl⟩⟩

/-- Taking a graph with all degrees at most two apart: the segments of the sections are its edges, each once. -/
theorem popComponents_segs (pk : ℕ → Picker) (ko : ℕ → KeyOrder) (verts : List (V3 α)) :
    ∀ (n : ℕ) (k : ℕ) (g : Graph), entries g.d ≤ n → GoodGraph g.d →
      (∀ v, (adj g.d v).card ≤ 2) → (∀ v, adj g.d v ≠ ∅ → v < verts.length) →
      ∃ cs EL, popComponents pk ko verts k g = .ok cs ∧ (∀ c ∈ cs, c.v ≠ [] ∧ (c.closed = false → c.v.head? ≠ c.v.getLast?)) ∧
        (∀ c ∈ cs, c.closed = false → ∀ q, c.v.head? = some q ∨ c.v.getLast? = some q →
          ∃ x, verts[x]? = some q ∧ (adj g.d x).card = 1) ∧
        (∀ x q, (adj g.d x).card = 1 → verts[x]? = some q →
          (∃ c ∈ cs, c.closed = false ∧ (c.v.head? = some q ∨ c.v.getLast? = some q)) ∨
          ∃ y, y ≠ x ∧ adj g.d y ≠ ∅ ∧ verts[y]? = some q) ∧
        List.Forall₂ (fun (e : ℕ × ℕ) (s : V3 α × V3 α) => verts[e.1]? = some s.1 ∧ verts[e.2]? = some s.2) EL
          (cs.flatMap fun c => chainSegs c.v c.closed) ∧ ∀ a b, cnt a b EL = ind (adj g.d) a b := by
  intro n
  have base : ∀ (k : ℕ) (g : Graph), g.d = [] → ∃ cs EL, popComponents pk ko verts k g = .ok cs ∧ (∀ c ∈ cs, c.v ≠ [] ∧ (c.closed = false → c.v.head? ≠ c.v.getLast?)) ∧
        (∀ c ∈ cs, c.closed = false → ∀ q, c.v.head? = some q ∨ c.v.getLast? = some q →
          ∃ x, verts[x]? = some q ∧ (adj g.d x).card = 1) ∧
        (∀ x q, (adj g.d x).card = 1 → verts[x]? = some q →
          (∃ c ∈ cs, c.closed = false ∧ (c.v.head? = some q ∨ c.v.getLast? = some q)) ∨
          ∃ y, y ≠ x ∧ adj g.d y ≠ ∅ ∧ verts[y]? = some q) ∧
        List.Forall₂ (fun (e : ℕ × ℕ) (s : V3 α × V3 α) => verts[e.1]? = some s.1 ∧ verts[e.2]? = some s.2) EL
          (cs.flatMap fun c => chainSegs c.v c.closed) ∧ ∀ a b, cnt a b EL = ind (adj g.d) a b := by
    intro k g hd
    rw [popComponents, if_pos hd]
    exact ⟨[], [], rfl, by simp, by simp, by simp [hd, adj], .nil, by intro a b; simp [cnt, ind, hd, adj]⟩
  induction n with
  | zero =>
    intro k g hn hg _ _
    by_cases hd : g.d = []
    · exact base k g hd
    · obtain ⟨s, h1, _, _⟩ := popEulerPath_start (pk k) (ko k) g hg hd
      obtain ⟨_, _, _, _, e4, _⟩ := euler_weak g.d hg s h1 (pk k) 0
      omega
  | succ n ih =>
    intro k g hn hg h2 hlt
    by_cases hd : g.d = []
    · exact base k g hd
    obtain ⟨p, g', e1, e2, e3, e4, e5, e6, e7, e8, e9⟩ := pop_uses (pk k) (ko k) g hg hd h2
    have hsub : ∀ v, adj g'.d v ⊆ adj g.d v := by
      intro v u hu
      have := e6 v u
      unfold ind at this
      rw [if_pos hu] at this
      by_contra hc
      rw [if_neg hc] at this
      omega
    obtain ⟨cs, EL, f1, f2, f2', f2'', f3, f4⟩ := ih (k + 1) g' (by omega) e2
      (fun v => (Finset.card_le_card (hsub v)).trans (h2 v)) (fun v hv => hlt v fun h => hv (by
        have := hsub v
        rw [h] at this
        exact Finset.subset_empty.mp this))
    obtain ⟨c, el, c1, c2, c2', c2'', c3, c4⟩ := component_segs verts p (fun i hi => hlt i (e5 i hi)) e4
    refine ⟨c :: cs, el ++ EL, ?_, ?_, ?_, ?_, ?_, ?_⟩
    · rw [popComponents, if_neg hd]; simp only [e1, c1, e3, dif_pos, f1]
    · intro c' hc'
      rcases List.mem_cons.mp hc' with rfl | hc'
      · exact c2
      · exact f2 c' hc'
    · intro c' hc' hcl q hq
      rcases List.mem_cons.mp hc' with rfl | hc'
      · obtain ⟨x, y, k1, k2, k3, k4, k5⟩ := c2' hcl
        obtain ⟨o1, o2⟩ := e8 x y k1 k2 k3
        rcases hq with hq | hq
        · exact ⟨x, k4.trans hq, o1⟩
        · exact ⟨y, k5.trans hq, o2⟩
      · obtain ⟨x, k1, k2⟩ := f2' c' hc' hcl q hq
        refine ⟨x, k1, ?_⟩
        rcases e7 x with h | h
        · rw [h] at k2; simp at k2
        · rw [← h]; exact k2
    · intro x q hx hq
      rcases e7 x with h | h
      · obtain ⟨y, hy, hy', hpe⟩ := e9 x hx h
        cases hcl : c.closed with
        | true =>
          refine Or.inr ⟨y, hy, hy', ?_⟩
          rcases hpe with ⟨p1, p2⟩ | ⟨p1, p2⟩
          · rw [← c2'' hcl x y p1 p2]; exact hq
          · rw [c2'' hcl y x p1 p2]; exact hq
        | false =>
          refine Or.inl ⟨c, by simp, hcl, ?_⟩
          obtain ⟨x', y', k1, k2, _, k4, k5⟩ := c2' hcl
          rcases hpe with ⟨p1, p2⟩ | ⟨p1, p2⟩
          · rw [p1] at k1
            rw [← Option.some.inj k1, hq] at k4
            exact Or.inl k4.symm
          · rw [p2] at k2
            rw [← Option.some.inj k2, hq] at k5
            exact Or.inr k5.symm
      · rcases f2'' x q (by rw [h]; exact hx) hq with ⟨c', w1, w2⟩ | ⟨y, w1, w2, w3⟩
        · exact Or.inl ⟨c', List.mem_cons_of_mem _ w1, w2⟩
        · refine Or.inr ⟨y, w1, fun h0 => w2 ?_, w3⟩
          have := hsub y
          rw [h0] at this
          exact Finset.subset_empty.mp this
    · rw [List.flatMap_cons]
      exact List.rel_append c4 f3
    · intro a b
      rw [cnt_append, cnt_perm c3, ← uses_eq_cnt, f4, e6]
      omega

/-! ### one face -/

section face
variable {pl : Plane ℝ}

theorem height_along (a b : V3 ℝ) (t : ℝ) :
    height pl (along a t (vec3 a b)) = height pl a + t * (height pl b - height pl a) := by
  simp only [height, along, vec3, inner3]; ring

theorem height_along2 (a b c : V3 ℝ) (s k : ℝ) :
    height pl (along (along a s (vec3 a b)) k (vec3 a c)) =
      height pl a + s * (height pl b - height pl a) + k * (height pl c - height pl a) := by
  simp only [height, along, vec3, inner3]; ring

/-- a corner off the plane: the points on its two edges bound what the triangle and the plane have in common -/
theorem chord_corner {a b c p q : V3 ℝ} (h1 : height pl a ≠ 0) (hp : OnPlane pl p) (hp' : OnSegment a b p)
    (hq : OnPlane pl q) (hq' : OnSegment a c q) (x : V3 ℝ) :
    OnSegment p q x ↔ OnPlane pl x ∧ InTriangle a b c x := by
  obtain ⟨t, t0, t1, rfl⟩ := hp'
  obtain ⟨r, r0, r1, rfl⟩ := hq'
  rw [onPlane_iff, height_along] at hp hq
  rw [onPlane_iff]
  have ht : t ≠ 0 := by rintro rfl; apply h1; linarith
  have hr : r ≠ 0 := by rintro rfl; apply h1; linarith
  have tp : 0 < t := lt_of_le_of_ne t0 (Ne.symm ht)
  have rp : 0 < r := lt_of_le_of_ne r0 (Ne.symm hr)
  constructor
  · rintro ⟨l, l0, l1, rfl⟩
    have e : along (along a t (vec3 a b)) l (vec3 (along a t (vec3 a b)) (along a r (vec3 a c))) =
        along (along a ((1 - l) * t) (vec3 a b)) (l * r) (vec3 a c) := by
      ext <;> simp only [along, vec3] <;> ring
    rw [e]
    refine ⟨?_, (1 - l) * t, l * r, by nlinarith, by nlinarith, by nlinarith, rfl⟩
    rw [height_along2]
    linear_combination (1 - l) * hp + l * hq
  · rintro ⟨hx, s, k, s0, k0, sk, rfl⟩
    rw [height_along2] at hx
    have hs : s * r + k * t = t * r := by
      have e1 : t * (height pl b - height pl a) = - height pl a := by linarith
      have e2 : r * (height pl c - height pl a) = - height pl a := by linarith
      have : height pl a * (s * r + k * t - t * r) = 0 := by
        linear_combination (- (t * r)) * hx + s * r * e1 + k * t * e2
      rcases mul_eq_zero.mp this with h | h
      · exact absurd h h1
      · linarith
    refine ⟨k / r, by positivity, ?_, ?_⟩
    · rw [div_le_one rp]
      have : 0 ≤ s * r := by positivity
      nlinarith
    · have e1 : k / r * r = k := by field_simp
      have e2 : (1 - k / r) * t = s := by
        field_simp
        linarith
      have e : along (along a t (vec3 a b)) (k / r) (vec3 (along a t (vec3 a b)) (along a r (vec3 a c))) =
          along (along a ((1 - k / r) * t) (vec3 a b)) (k / r * r) (vec3 a c) := by
        ext <;> simp only [along, vec3] <;> ring
      rw [e, e1, e2]

/-- an edge from a corner on the plane to one off it meets the plane in that corner -/
theorem point_corner {a b p : V3 ℝ} (ha : height pl a = 0) (hb : height pl b ≠ 0) (hp : OnPlane pl p) (hp' : OnSegment a b p) :
    p = a := by
  obtain ⟨t, t0, t1, rfl⟩ := hp'
  rw [onPlane_iff, height_along, ha] at hp
  have : t = 0 := by
    rcases mul_eq_zero.mp (show t * height pl b = 0 by linarith) with h | h
    · exact h
    · exact absurd h hb
  subst this
  ext <;> simp [along]

/-- a corner on the plane and two on one side -/
theorem chord_touch {a b c : V3 ℝ} (ha : height pl a = 0) (hbc : 0 < height pl b * height pl c) (x : V3 ℝ) :
    OnSegment a a x ↔ OnPlane pl x ∧ InTriangle a b c x := by
  rw [onPlane_iff]
  constructor
  · rintro ⟨l, _, _, rfl⟩
    have e : along a l (vec3 a a) = a := by ext <;> simp [along, vec3]
    rw [e]
    exact ⟨ha, 0, 0, le_rfl, le_rfl, by norm_num, by ext <;> simp [along]⟩
  · rintro ⟨hx, s, k, s0, k0, sk, rfl⟩
    rw [height_along2, ha] at hx
    have hx : s * height pl b + k * height pl c = 0 := by linarith
    have h0 : s = 0 ∧ k = 0 := by
      rcases mul_pos_iff.mp hbc with ⟨h1, h2⟩ | ⟨h1, h2⟩
      · have a1 : 0 ≤ s * height pl b := by positivity
        have a2 : 0 ≤ k * height pl c := by positivity
        have b1 : s * height pl b = 0 := by linarith
        have b2 : k * height pl c = 0 := by linarith
        exact ⟨(mul_eq_zero.mp b1).resolve_right h1.ne', (mul_eq_zero.mp b2).resolve_right h2.ne'⟩
      · have a1 : s * height pl b ≤ 0 := by nlinarith
        have a2 : k * height pl c ≤ 0 := by nlinarith
        have b1 : s * height pl b = 0 := by linarith
        have b2 : k * height pl c = 0 := by linarith
        exact ⟨(mul_eq_zero.mp b1).resolve_right h1.ne, (mul_eq_zero.mp b2).resolve_right h2.ne⟩
    rw [h0.1, h0.2]
    exact ⟨0, le_rfl, by norm_num, by ext <;> simp [along]⟩

theorem chord_swap {m : Mesh ℝ} {f : ℕ × ℕ × ℕ} {p q : V3 ℝ} (h : Chord pl m f (p, q)) : Chord pl m f (q, p) := fun x =>
  ⟨fun k => (h x).mp (Blmath.CH.onSegment_symm k), fun k => Blmath.CH.onSegment_symm ((h x).mpr k)⟩

theorem piece_swap {m : Mesh ℝ} {f : ℕ × ℕ × ℕ} {p q : V3 ℝ} (h : Piece pl m f (p, q)) : Piece pl m f (q, p) :=
  ⟨fun k => chord_swap (h.1 k), fun k => ⟨(h.2 k).1.symm, (h.2 k).2.trans (congrArg some (h.2 k).1)⟩⟩

/-- the points on two edges with the corner `a` in common -/
theorem corner_cases {a b c p q : V3 ℝ} (hab : height pl a ≠ height pl b) (hac : height pl a ≠ height pl c)
    (hp : OnPlane pl p ∧ OnSegment a b p) (hq : OnPlane pl q ∧ OnSegment a c q)
    (hin : height pl a = 0 → 0 < height pl b * height pl c) (x : V3 ℝ) :
    OnSegment p q x ↔ OnPlane pl x ∧ InTriangle a b c x := by
  by_cases ha : height pl a = 0
  · rw [point_corner ha (fun h => hab (ha.trans h.symm)) hp.1 hp.2, point_corner ha (fun h => hac (ha.trans h.symm)) hq.1 hq.2]
    exact chord_touch ha (hin ha) x
  · exact chord_corner ha hp.1 hp.2 hq.1 hq.2 x

/-- the link added for a face that is selected and not in the plane -/
theorem addFace_link {m : Mesh ℝ} {D : ℕ → ℕ → Prop} {im : EdgeMap (V3 ℝ)}
    (him : GoodMap (fun u v q => CrossPoint pl m (u, v) q) D im) (f : ℕ × ℕ × ℕ) (hf : ProperFace f)
    (hv : f.1 < m.v.length ∧ f.2.1 < m.v.length ∧ f.2.2 < m.v.length) (hs : Straddles pl m.v f) (hin : ¬ InPlane pl m.v f)
    (hD : ∀ u v, hasEdge f u v = true → (D u v ↔ Meets pl m.v u v)) :
    ∃ x y e e', x ≠ y ∧ hasEdge f e.1 e.2 = true ∧ hasEdge f e'.1 e'.2 = true ∧
      im.index e.1 e.2 = some x ∧ im.index e'.1 e'.2 = some y ∧
      (∀ ver g, addFace ver im g f = addEdge ver g (some x) (some y)) ∧
      (∀ p q, CrossPoint pl m e p → CrossPoint pl m e' q → Piece pl m f (p, q)) ∧
      (¬ Pinched pl m.v f → ∀ u v, hasEdge f u v = true → Opposite pl m.v u v →
        im.index u v = some x ∨ im.index u v = some y) := by
  have mc := meets_cases pl m f hv hs hin
  obtain ⟨i, j, k⟩ := f
  obtain ⟨p1, p2, p3⟩ := hf
  obtain ⟨v1, v2, v3⟩ := hv
  simp only at p1 p2 p3 v1 v2 v3 mc
  have d01 := hD i j (by simp [hasEdge, corner, p1])
  have d02 := hD i k (by simp [hasEdge, corner, p3])
  have d12 := hD j k (by simp [hasEdge, corner, p2])
  rw [← him.dom] at d01 d02 d12
  obtain ⟨a, ha⟩ : ∃ a, m.v[i]? = some a := ⟨_, List.getElem?_eq_getElem v1⟩
  obtain ⟨b, hb⟩ : ∃ a, m.v[j]? = some a := ⟨_, List.getElem?_eq_getElem v2⟩
  obtain ⟨c, hc⟩ : ∃ a, m.v[k]? = some a := ⟨_, List.getElem?_eq_getElem v3⟩
  have meets : ∀ u v x y, m.v[u]? = some x → m.v[v]? = some y → (Meets pl m.v u v ↔ height pl x ≠ height pl y ∧
      ¬ (0 < height pl x ∧ 0 < height pl y) ∧ ¬ (height pl x < 0 ∧ height pl y < 0)) := by
    intro u v x y hx hy
    unfold Meets
    simp [hx, hy]
  have cross : ∀ u v x y q, m.v[u]? = some x → m.v[v]? = some y → CrossPoint pl m (u, v) q → OnPlane pl q ∧ OnSegment x y q := by
    rintro u v x y q hx hy ⟨x', y', hx', hy', h⟩
    simp only at hx' hy'
    rw [hx] at hx'; rw [hy] at hy'
    injection hx' with hx'; injection hy' with hy'
    subst hx' hy'
    exact h
  have opp : Opposite pl m.v j k ↔ height pl b * height pl c < 0 := by
    unfold Opposite; simp [hb, hc]
  have pin : Pinched pl m.v (i, j, k) ↔ height pl a = 0 ∧ height pl b * height pl c < 0 := by
    unfold Pinched
    simp only [ha, Option.some.injEq, exists_eq_left', opp, onPlane_iff]
  have face : ∀ x, InFace m (i, j, k) x ↔ InTriangle a b c x := inFace_iff ha hb hc
  rw [meets i j a b ha hb] at d01 mc
  rw [meets i k a c ha hc] at d02 mc
  rw [meets j k b c hb hc] at d12 mc
  have same : ∀ {x y : ℝ}, x ≠ 0 → y ≠ 0 → ¬ (x ≠ y ∧ ¬ (0 < x ∧ 0 < y) ∧ ¬ (x < 0 ∧ y < 0)) → 0 < x * y := by
    intro x y hx hy h
    by_contra hn
    apply h
    rcases lt_or_gt_of_ne hx with h1 | h1 <;> rcases lt_or_gt_of_ne hy with h2 | h2
    · exact absurd (mul_pos_of_neg_of_neg h1 h2) hn
    · exact ⟨by linarith, fun h => by linarith [h.1], fun h => by linarith [h.2]⟩
    · exact ⟨by linarith, fun h => by linarith [h.2], fun h => by linarith [h.1]⟩
    · exact absurd (mul_pos h1 h2) hn
  have e01 : hasEdge (i, j, k) i j = true := by simp [hasEdge, corner, p1]
  have e02 : hasEdge (i, j, k) i k = true := by simp [hasEdge, corner, p3]
  have e12 : hasEdge (i, j, k) j k = true := by simp [hasEdge, corner, p2]
  have get : ∀ {o : Option ℕ}, o ≠ none → ∃ x, o = some x := fun h => Option.ne_none_iff_exists'.mp h
  have ne : ∀ u v u' v' x y, ¬ SamePair u v u' v' → im.index u v = some x → im.index u' v' = some y → x ≠ y := by
    rintro u v u' v' x y hn hx hy rfl
    exact hn (him.inj _ _ _ _ _ hx hy)
  have edges : ∀ u v, hasEdge (i, j, k) u v = true → SamePair u v i j ∨ SamePair u v i k ∨ SamePair u v j k := by
    intro u v h
    simp only [hasEdge, corner, Bool.and_eq_true, decide_eq_true_eq] at h
    unfold SamePair
    omega
  have strict : ∀ u v u' v' x y, m.v[u']? = some x → m.v[v']? = some y → SamePair u v u' v' → Opposite pl m.v u v →
      height pl x * height pl y < 0 := by
    rintro u v u' v' x y hx hy hs ⟨x', y', hx', hy', h⟩
    rcases hs with ⟨rfl, rfl⟩ | ⟨rfl, rfl⟩
    · rw [hx] at hx'; rw [hy] at hy'
      injection hx' with hx'; injection hy' with hy'
      rw [hx', hy']; exact h
    · rw [hx] at hy'; rw [hy] at hx'
      injection hx' with hx'; injection hy' with hy'
      rw [hx', hy', mul_comm]; exact h
  have met : ∀ {x y : ℝ}, x * y < 0 → x ≠ y ∧ ¬ (0 < x ∧ 0 < y) ∧ ¬ (x < 0 ∧ y < 0) := by
    intro x y h
    refine ⟨?_, fun h' => ?_, fun h' => ?_⟩
    · rintro rfl; exact absurd h (not_lt.mpr (mul_self_nonneg x))
    · exact absurd h (not_lt.mpr (mul_pos h'.1 h'.2).le)
    · exact absurd h (not_lt.mpr (mul_pos_of_neg_of_neg h'.1 h'.2).le)
  by_cases m01 : im.index i j = none
  · -- the first edge does not meet the plane
    have n01 := mt d01.mpr (not_not.mpr m01)
    have h2 : (im.index i k ≠ none) ∧ im.index j k ≠ none := by
      rw [d02, d12]
      rcases mc with h | h | h
      · exact absurd h.1 n01
      · exact absurd h.1 n01
      · exact h
    obtain ⟨x, hx⟩ := get h2.1
    obtain ⟨y, hy⟩ := get h2.2
    have q1 := (d02.mp h2.1).1
    have q2 := (d12.mp h2.2).1
    refine ⟨x, y, (i, k), (j, k), ne _ _ _ _ _ _ (by unfold SamePair; omega) hx hy, e02, e12, hx, hy,
      by intro ver g; simp [addFace, m01, hx, hy], ?_, fun _ u v he ho => ?_⟩
    rotate_left
    · rcases edges u v he with h | h | h
      · exact absurd (met (strict _ _ _ _ _ _ ha hb h ho)) n01
      · exact Or.inl ((index_samePair h).trans hx)
      · exact Or.inr ((index_samePair h).trans hy)
    intro p q hp hq
    have hp := cross _ _ _ _ _ ha hc hp
    have hq := cross _ _ _ _ _ hb hc hq
    have key := corner_cases (Ne.symm q1) (Ne.symm q2) ⟨hp.1, Blmath.CH.onSegment_symm hp.2⟩
      ⟨hq.1, Blmath.CH.onSegment_symm hq.2⟩ (fun h => same (fun h' => q1 (h'.trans h.symm)) (fun h' => q2 (h'.trans h.symm)) n01)
    refine ⟨fun _ z => ?_, fun h => ?_⟩
    · rw [face z, key z]
      exact and_congr_right fun _ => ⟨triangle_turn, fun h => triangle_turn (triangle_turn h)⟩
    · exfalso
      obtain ⟨h1, h2⟩ := pin.mp h
      apply n01
      rw [h1]
      exact ⟨fun h => by rw [← h] at h2; simp at h2, fun h => lt_irrefl _ h.1, fun h => lt_irrefl _ h.1⟩
  obtain ⟨x, hx⟩ := get m01
  have q1 := (d01.mp m01).1
  by_cases m02 : im.index i k = none
  · have n02 := mt d02.mpr (not_not.mpr m02)
    have h2 : im.index j k ≠ none := by
      rw [d12]
      rcases mc with h | h | h
      · exact absurd h.2 n02
      · exact h.2
      · exact absurd h.1 n02
    obtain ⟨y, hy⟩ := get h2
    have q2 := (d12.mp h2).1
    refine ⟨x, y, (i, j), (j, k), ne _ _ _ _ _ _ (by unfold SamePair; omega) hx hy, e01, e12, hx, hy,
      by intro ver g; simp [addFace, m02, hx, hy], ?_, fun _ u v he ho => ?_⟩
    rotate_left
    · rcases edges u v he with h | h | h
      · exact Or.inl ((index_samePair h).trans hx)
      · exact absurd (met (strict _ _ _ _ _ _ ha hc h ho)) n02
      · exact Or.inr ((index_samePair h).trans hy)
    intro p q hp hq
    have hp := cross _ _ _ _ _ ha hb hp
    have hq := cross _ _ _ _ _ hb hc hq
    have key := corner_cases (Ne.symm q1) q2 ⟨hp.1, Blmath.CH.onSegment_symm hp.2⟩ hq
      (fun h => same (fun h' => q1 (h'.trans h.symm)) (fun h' => q2 (h.trans h'.symm)) n02)
    refine ⟨fun _ z => ?_, fun h => ?_⟩
    · rw [face z, key z]
      exact and_congr_right fun _ => ⟨fun h => triangle_turn (triangle_turn (triangle_swap h)), fun h => triangle_swap (triangle_turn h)⟩
    · exfalso
      obtain ⟨h1, h2⟩ := pin.mp h
      apply n02
      rw [h1]
      exact ⟨fun h => by rw [← h] at h2; simp at h2, fun h => lt_irrefl _ h.1, fun h => lt_irrefl _ h.1⟩
  obtain ⟨y, hy⟩ := get m02
  have q2 := (d02.mp m02).1
  refine ⟨x, y, (i, j), (i, k), ne _ _ _ _ _ _ (by unfold SamePair; omega) hx hy, e01, e02, hx, hy,
    by intro ver g; simp [addFace, hx, hy], ?_, fun hnp u v he ho => ?_⟩
  rotate_left
  · rcases edges u v he with h | h | h
    · exact Or.inl ((index_samePair h).trans hx)
    · exact Or.inr ((index_samePair h).trans hy)
    · exfalso
      have hbc := strict _ _ _ _ _ _ hb hc h ho
      have r1 := d01.mp m01
      have r2 := d02.mp m02
      have h0 : height pl a ≠ 0 := fun h0 => hnp (pin.mpr ⟨h0, hbc⟩)
      rcases lt_or_gt_of_ne h0 with h0 | h0 <;> rcases mul_neg_iff.mp hbc with ⟨s1, s2⟩ | ⟨s1, s2⟩
      · exact r2.2.2 ⟨h0, s2⟩
      · exact r1.2.2 ⟨h0, s1⟩
      · exact r1.2.1 ⟨h0, s1⟩
      · exact r2.2.1 ⟨h0, s2⟩
  intro p q hp hq
  have hp := cross _ _ _ _ _ ha hb hp
  have hq := cross _ _ _ _ _ ha hc hq
  refine ⟨fun h z => ?_, fun h => ?_⟩
  · rw [pin] at h
    rw [face z]
    refine corner_cases q1 q2 hp hq (fun h0 => ?_) z
    have hb0 : height pl b ≠ 0 := fun h' => q1 (h0.trans h'.symm)
    have hc0 : height pl c ≠ 0 := fun h' => q2 (h0.trans h'.symm)
    have h1 : ¬ height pl b * height pl c < 0 := fun h1 => h ⟨h0, h1⟩
    exact lt_of_le_of_ne (not_lt.mp h1) (Ne.symm (mul_ne_zero hb0 hc0))
  · obtain ⟨h0, h1⟩ := pin.mp h
    have e1 := point_corner h0 (fun h' => q1 (h0.trans h'.symm)) hp.1 hp.2
    have e2 := point_corner h0 (fun h' => q2 (h0.trans h'.symm)) hq.1 hq.2
    exact ⟨e1.trans e2.symm, by simp only [e1]; exact ha⟩

end face

/-! ### all faces -/

theorem addFaces_links (ver : PyVer) (im : EdgeMap (V3 ℝ)) (X Y : ℕ × ℕ × ℕ → ℕ) (fs : List (ℕ × ℕ × ℕ))
    (h : ∀ f ∈ fs, X f ≠ Y f ∧ X f < im.values.length ∧ Y f < im.values.length ∧
      (∀ ver g, addFace ver im g f = addEdge ver g (some (X f)) (some (Y f)))) :
    ∀ g : Graph, g.size = im.values.length → GoodGraph g.d →
    ∃ g', fs.foldlM (addFace ver im) g = .ok g' ∧ GoodGraph g'.d ∧
      ∀ i j, j ∈ adj g'.d i ↔ j ∈ adj g.d i ∨ ∃ f ∈ fs, (i = X f ∧ j = Y f) ∨ (i = Y f ∧ j = X f) := by
  induction fs with
  | nil => intro g _ hg; exact ⟨g, rfl, hg, by simp⟩
  | cons f fs ih =>
    intro g hs hg
    obtain ⟨h1, h2, h3, h4⟩ := h f (by simp)
    obtain ⟨d', e1, e2, e3⟩ := addEdge_spec ver g hg (X f) (Y f) (hs ▸ h2) (hs ▸ h3) h1
    obtain ⟨g', f1, f2, f3⟩ := ih (fun f' hf' => h f' (by simp [hf'])) ⟨g.size, d'⟩ hs e2
    refine ⟨g', ?_, f2, ?_⟩
    · rw [List.foldlM_cons, h4, e1]; exact f1
    · intro i j
      rw [f3, e3]
      simp only [List.mem_cons, exists_eq_or_imp, or_assoc]

theorem cnt_pos {a b : ℕ} {l : List (ℕ × ℕ)} : 0 < cnt a b l ↔ (a, b) ∈ l ∨ (b, a) ∈ l := by
  induction l with
  | nil => simp [cnt]
  | cons e l ih =>
    have : cnt a b (e :: l) = isEdge a b e.1 e.2 + cnt a b l := by simp [cnt]
    rw [this, List.mem_cons, List.mem_cons]
    unfold isEdge
    obtain ⟨x, y⟩ := e
    simp only [Prod.mk.injEq]
    split
    · next h => constructor
                · intro _; rcases h with ⟨rfl, rfl⟩ | ⟨rfl, rfl⟩ <;> simp
                · intro _; omega
    · next h =>
      rw [zero_add, ih]
      constructor
      · rintro (h | h) <;> simp [h]
      · rintro ((⟨rfl, rfl⟩ | h1) | (⟨rfl, rfl⟩ | h1))
        · simp at h
        · exact Or.inl h1
        · simp at h
        · exact Or.inr h1

/-- a list having every edge at most once, either way round -/
theorem cnt_pairwise {l : List (ℕ × ℕ)} (h : ∀ a b, cnt a b l ≤ 1) :
    l.Pairwise fun e e' => e ≠ e' ∧ e ≠ (e'.2, e'.1) := by
  induction l with
  | nil => exact .nil
  | cons e l ih =>
    have step : ∀ a b, cnt a b (e :: l) = isEdge a b e.1 e.2 + cnt a b l := by intro a b; simp [cnt]
    rw [List.pairwise_cons]
    refine ⟨?_, ih fun a b => by have := h a b; rw [step] at this; omega⟩
    intro e' he'
    have h1 := h e.1 e.2
    rw [step] at h1
    have h2 : isEdge e.1 e.2 e.1 e.2 = 1 := by simp [isEdge]
    have h3 : ¬ 0 < cnt e.1 e.2 l := by omega
    rw [cnt_pos, not_or] at h3
    constructor
    · rintro rfl; exact h3.1 he'
    · rintro rfl; exact h3.2 he'

theorem straddles_of_opposite {pl : Plane ℝ} {m : Mesh ℝ} {f : ℕ × ℕ × ℕ}
    (hv : f.1 < m.v.length ∧ f.2.1 < m.v.length ∧ f.2.2 < m.v.length) {u v : ℕ} (he : hasEdge f u v = true)
    (ho : Opposite pl m.v u v) : Straddles pl m.v f := by
  obtain ⟨i, j, k⟩ := f
  obtain ⟨v1, v2, v3⟩ := hv
  obtain ⟨x, y, hx, hy, hxy⟩ := ho
  have gi := List.getElem?_eq_getElem v1
  have gj := List.getElem?_eq_getElem v2
  have gk := List.getElem?_eq_getElem v3
  have key : ∀ w z, corner (i, j, k) w = true → m.v[w]? = some z → z = m.v[i] ∨ z = m.v[j] ∨ z = m.v[k] := by
    intro w z hw hz
    simp only [corner, decide_eq_true_eq] at hw
    rcases hw with rfl | rfl | rfl
    · exact Or.inl (Option.some.inj (hz.symm.trans gi))
    · exact Or.inr (Or.inl (Option.some.inj (hz.symm.trans gj)))
    · exact Or.inr (Or.inr (Option.some.inj (hz.symm.trans gk)))
  simp only [hasEdge, Bool.and_eq_true] at he
  have hx' := key u x he.1.2 hx
  have hy' := key v y he.2 hy
  refine ⟨_, _, _, gi, gj, gk, ?_, ?_⟩
  · rintro ⟨g1, g2, g3⟩
    have px : 0 < height pl x := by rcases hx' with rfl | rfl | rfl <;> assumption
    have py : 0 < height pl y := by rcases hy' with rfl | rfl | rfl <;> assumption
    exact absurd hxy (not_lt.mpr (mul_pos px py).le)
  · rintro ⟨g1, g2, g3⟩
    have px : height pl x < 0 := by rcases hx' with rfl | rfl | rfl <;> assumption
    have py : height pl y < 0 := by rcases hy' with rfl | rfl | rfl <;> assumption
    exact absurd hxy (not_lt.mpr (mul_pos_of_neg_of_neg px py).le)

theorem crossPoint_unique {pl : Plane ℝ} {m : Mesh ℝ} {u v : ℕ} (ho : Opposite pl m.v u v) {p q : V3 ℝ}
    (hp : CrossPoint pl m (u, v) p) (hq : CrossPoint pl m (u, v) q) : p = q := by
  obtain ⟨a, b, ha, hb, h⟩ := ho
  obtain ⟨a', b', ha', hb', p1, p2⟩ := hp
  obtain ⟨a'', b'', ha'', hb'', q1, q2⟩ := hq
  simp only at ha' hb' ha'' hb''
  rw [ha] at ha' ha''; rw [hb] at hb' hb''
  injection ha' with ha'; injection hb' with hb'
  injection ha'' with ha''; injection hb'' with hb''
  subst ha' hb' ha'' hb''
  obtain ⟨s, _, _, rfl⟩ := p2
  obtain ⟨t, _, _, rfl⟩ := q2
  have e1 := (onPlane_iff pl _).mp p1
  have e2 := (onPlane_iff pl _).mp q1
  rw [height_along] at e1 e2
  have hne : height pl b - height pl a ≠ 0 := by
    intro h0
    have : height pl b = height pl a := by linarith
    rw [this] at h
    exact absurd h (not_lt.mpr (mul_self_nonneg _))
  have : s = t := by
    have : (s - t) * (height pl b - height pl a) = 0 := by linarith
    rcases mul_eq_zero.mp this with h | h
    · linarith
    · exact absurd h hne
  rw [this]

set_option maxHeartbeats 1000000 in
/-- The segments of the sections belong to the selected faces, one each. -/
theorem segments_of_faces (ver : PyVer) (pk : ℕ → Picker) (ko : ℕ → KeyOrder) (pl : Plane ℝ) (m : Mesh ℝ)
    (hv : ValidFaces m) (hp : ∀ f ∈ m.f, ProperFace f) (hin : ∀ f ∈ m.f, ¬ InPlane pl m.v f)
    (hman : EdgeManifold m) (hdis : m.f.Pairwise fun f g => ¬ SameCorners f g) :
    ∃ cs fs, pl.meshXsections ver pk ko m = .ok cs ∧ (∀ c ∈ cs, WellEnded c.v c.closed) ∧
      fs.Perm (m.f.filter fun f => open Classical in decide (Straddles pl m.v f)) ∧
      List.Forall₂ (Piece pl m) fs (cs.flatMap fun c => chainSegs c.v c.closed) ∧
      (∀ c ∈ cs, c.closed = false → ∀ q, c.v.head? = some q ∨ c.v.getLast? = some q → LooseEnd pl m q) ∧
      ∀ u v q, Opposite pl m.v u v → CrossPoint pl m (u, v) q → (m.f.filter fun f => hasEdge f u v).length = 1 →
        (∀ f ∈ m.f, hasEdge f u v = true → ¬ Pinched pl m.v f) →
        (∀ u' v', ¬ SamePair u v u' v' → (∃ f ∈ m.f, hasEdge f u' v' = true) → ¬ CrossPoint pl m (u', v') q) →
        ∃ c ∈ cs, c.closed = false ∧ (c.v.head? = some q ∨ c.v.getLast? = some q) := by
  have hfaces := C28_faces pl m hv
  generalize hfs : (m.f.filter fun f => open Classical in decide (Straddles pl m.v f)) = fs at hfaces
  have hfm : ∀ f, f ∈ fs ↔ f ∈ m.f ∧ Straddles pl m.v f := by
    intro f; rw [← hfs]; simp
  have hdf : fs.Pairwise fun f g => ¬ SameCorners f g := by rw [← hfs]; exact hdis.filter _
  have hmf : ∀ u v, (fs.filter fun f => hasEdge f u v).length ≤ 2 := by
    intro u v
    refine le_trans ?_ (hman u v)
    rw [← hfs]
    exact (List.Sublist.filter _ List.filter_sublist).length_le
  obtain ⟨im, him, hgood⟩ := intersectionMap_spec pl m fs (fun f hf => hv f ((hfm f).mp hf).1)
  unfold Plane.meshXsections
  rw [hfaces]
  simp only [ok_bind]
  by_cases hlen : fs.length = 0
  · rw [if_pos hlen]
    have : fs = [] := List.length_eq_zero_iff.mp hlen
    subst this
    refine ⟨[], [], rfl, by simp, .nil, .nil, by simp, ?_⟩
    intro u v q ho _ h1 _ _
    obtain ⟨f, hf⟩ := List.length_eq_one_iff.mp h1
    have hf : f ∈ m.f.filter fun f => hasEdge f u v := by rw [hf]; simp
    obtain ⟨w1, w2⟩ := List.mem_filter.mp hf
    have := (hfm f).mpr ⟨w1, straddles_of_opposite (hv f w1) w2 ho⟩
    simp at this
  rw [if_neg hlen]
  have hD := mem_faceEdges fs (fun f hf => hp f ((hfm f).mp hf).1)
  have hlink : ∀ f, ∃ x y e e', f ∈ fs → (x ≠ y ∧ hasEdge f e.1 e.2 = true ∧ hasEdge f e'.1 e'.2 = true ∧
      im.index e.1 e.2 = some x ∧ im.index e'.1 e'.2 = some y ∧
      (∀ ver g, addFace ver im g f = addEdge ver g (some x) (some y)) ∧
      (∀ p q, CrossPoint pl m e p → CrossPoint pl m e' q → Piece pl m f (p, q)) ∧
      (¬ Pinched pl m.v f → ∀ u v, hasEdge f u v = true → Opposite pl m.v u v →
        im.index u v = some x ∨ im.index u v = some y)) := by
    intro f
    by_cases hf : f ∈ fs
    · obtain ⟨h1, h2⟩ := (hfm f).mp hf
      obtain ⟨x, y, e, e', h⟩ := addFace_link hgood f (hp f h1) (hv f h1) h2 (hin f h1) (fun u v he =>
        and_iff_right ((hD u v).mpr ⟨f, hf, he⟩))
      exact ⟨x, y, e, e', fun _ => h⟩
    · exact ⟨0, 0, (0, 0), (0, 0), fun h => absurd h hf⟩
  choose X Y E E' hL using hlink
  have L1 : ∀ f ∈ fs, X f ≠ Y f := fun f hf => (hL f hf).1
  have L4 : ∀ f ∈ fs, im.index (E f).1 (E f).2 = some (X f) := fun f hf => (hL f hf).2.2.2.1
  have L5 : ∀ f ∈ fs, im.index (E' f).1 (E' f).2 = some (Y f) := fun f hf => (hL f hf).2.2.2.2.1
  obtain ⟨g, g1, g2, g3⟩ := addFaces_links ver im X Y fs (fun f hf => ⟨L1 f hf, hgood.lt (L4 f hf), hgood.lt (L5 f hf),
    (hL f hf).2.2.2.2.2.1⟩) (Graph.new im.values.length) rfl goodGraph_nil
  have hadj : ∀ i j, j ∈ adj g.d i ↔ ∃ f ∈ fs, (i = X f ∧ j = Y f) ∨ (i = Y f ∧ j = X f) := by
    intro i j
    rw [g3]
    simp [Graph.new, adj]
  clear g3
  -- a graph vertex used by a face is an edge of it
  have has : ∀ f ∈ fs, ∀ u v i, im.index u v = some i → (i = X f ∨ i = Y f) → hasEdge f u v = true := by
    intro f hf u v i hi h
    have key : ∀ e : ℕ × ℕ, hasEdge f e.1 e.2 = true → im.index e.1 e.2 = some i → hasEdge f u v = true := by
      intro e he hei
      rcases hgood.inj _ _ _ _ _ hei hi with ⟨h1, h2⟩ | ⟨h1, h2⟩
      · rw [← h1, ← h2]; exact he
      · rw [← h1, ← h2, hasEdge_symm]; exact he
    rcases h with rfl | rfl
    · exact key (E f) (hL f hf).2.1 (L4 f hf)
    · exact key (E' f) (hL f hf).2.2.1 (L5 f hf)
  -- two edges belong to one face only
  have uniq : ∀ f' ∈ fs, ∀ f ∈ fs, (X f = X f' ∨ X f = Y f') → (Y f = X f' ∨ Y f = Y f') → f' = f := by
    intro f' h3 f hf hx hy
    by_contra hne
    have s1 := has f' h3 _ _ _ (L4 f hf) hx
    have s2 := has f' h3 _ _ _ (L5 f hf) hy
    have t1 := (hL f hf).2.1
    have t2 := (hL f hf).2.2.1
    have hek : ek (E f).1 (E f).2 ≠ ek (E' f).1 (E' f).2 := by
      intro h
      apply L1 f hf
      have : SamePair (E f).1 (E f).2 (E' f).1 (E' f).2 := by
        simp only [ek, Prod.mk.injEq] at h
        unfold SamePair
        omega
      have := index_samePair (m := im) this
      rw [L4 f hf, L5 f hf] at this
      exact Option.some.inj this
    have ord : ∀ {f : ℕ × ℕ × ℕ} {e : ℕ × ℕ}, hasEdge f e.1 e.2 = true →
        (ek e.1 e.2).1 < (ek e.1 e.2).2 ∧ hasEdge f (ek e.1 e.2).1 (ek e.1 e.2).2 = true := by
      intro f e he
      have hne : e.1 ≠ e.2 := by
        simp only [hasEdge, Bool.and_eq_true, decide_eq_true_eq] at he
        exact he.1.1
      unfold ek
      rcases le_total e.1 e.2 with h | h
      · simp only [min_eq_left h, max_eq_right h]
        exact ⟨by omega, he⟩
      · simp only [min_eq_right h, max_eq_left h]
        exact ⟨by omega, by rw [hasEdge_symm]; exact he⟩
    have hsame := sameCorners_of_two_edges f' f (ek (E f).1 (E f).2) (ek (E' f).1 (E' f).2) (ord t1).1 (ord t2).1 hek
      (ord s1).2 (ord s2).2 (ord t1).2 (ord t2).2
    have : Std.Symm fun f g : ℕ × ℕ × ℕ => ¬ SameCorners f g := ⟨fun _ _ h h' => h fun u => (h' u).symm⟩
    exact hdf.forall h3 hf hne hsame
  have hlt : ∀ v, adj g.d v ≠ ∅ → v < im.values.length := by
    intro v hv
    obtain ⟨u, hu⟩ := Finset.nonempty_iff_ne_empty.mpr hv
    obtain ⟨f, hf, ⟨rfl, _⟩ | ⟨rfl, _⟩⟩ := (hadj v u).mp hu
    · exact hgood.lt (L4 f hf)
    · exact hgood.lt (L5 f hf)
  have hdeg : ∀ v, (adj g.d v).card ≤ 2 := by
    intro i
    by_cases hi : adj g.d i = ∅
    · rw [hi]; simp
    obtain ⟨u, v, huv⟩ := hgood.surj i (hlt i hi)
    have hsub : adj g.d i ⊆ ((fs.filter fun f => hasEdge f u v).map fun f => if i = X f then Y f else X f).toFinset := by
      intro j hj
      obtain ⟨f, hf, h⟩ := (hadj i j).mp hj
      rw [List.mem_toFinset, List.mem_map]
      refine ⟨f, List.mem_filter.mpr ⟨hf, has f hf u v i huv (h.imp And.left And.left)⟩, ?_⟩
      rcases h with ⟨h1, h2⟩ | ⟨h1, h2⟩
      · rw [if_pos h1]; exact h2.symm
      · rw [if_neg (fun h => L1 f hf (h.symm.trans h1))]; exact h2.symm
    calc _ ≤ _ := Finset.card_le_card hsub
      _ ≤ _ := List.toFinset_card_le _
      _ = _ := List.length_map _
      _ ≤ 2 := hmf _ _
  obtain ⟨cs, EL, k1, k2, k2', k2'', k3, k4⟩ := popComponents_segs pk ko im.values (entries g.d) 0 g le_rfl g2 hdeg hlt
  have hpw := cnt_pairwise (l := EL) (fun a b => by rw [k4]; unfold ind; split <;> omega)
  have hEL : ∀ a b, ((a, b) ∈ EL ∨ (b, a) ∈ EL) ↔ b ∈ adj g.d a := by
    intro a b
    rw [← cnt_pos, k4]
    unfold ind
    split <;> simp_all
  have hface : ∀ e : ℕ × ℕ, ∃ f, e ∈ EL → f ∈ fs ∧ ((e.1 = X f ∧ e.2 = Y f) ∨ (e.1 = Y f ∧ e.2 = X f)) := by
    intro e
    by_cases he : e ∈ EL
    · obtain ⟨f, hf, h⟩ := (hadj e.1 e.2).mp ((hEL e.1 e.2).mp (Or.inl he))
      exact ⟨f, fun _ => ⟨hf, h⟩⟩
    · exact ⟨(0, 0, 0), fun h => absurd h he⟩
  choose F hF using hface
  refine ⟨cs, EL.map F, ?_, k2, ?_, ?_, ?_, ?_⟩
  · simp only [sliceComponents, him, ok_bind, g1, k1]
    rfl
  · have nf : fs.Nodup := hdf.imp fun h e => h (by rw [e]; exact fun _ => rfl)
    refine (List.perm_ext_iff_of_nodup ?_ nf).mpr ?_
    · have : EL.Pairwise fun e e' => F e ≠ F e' := by
        refine List.Pairwise.imp_of_mem ?_ hpw
        intro e e' he he' hn heq
        obtain ⟨_, h1⟩ := hF e he
        obtain ⟨_, h2⟩ := hF e' he'
        rw [← heq] at h2
        rcases h1 with ⟨a1, a2⟩ | ⟨a1, a2⟩ <;> rcases h2 with ⟨b1, b2⟩ | ⟨b1, b2⟩
        · exact hn.1 (Prod.ext (a1.trans b1.symm) (a2.trans b2.symm))
        · exact hn.2 (Prod.ext (a1.trans b2.symm) (a2.trans b1.symm))
        · exact hn.2 (Prod.ext (a1.trans b2.symm) (a2.trans b1.symm))
        · exact hn.1 (Prod.ext (a1.trans b1.symm) (a2.trans b2.symm))
      exact List.pairwise_map.mpr this
    · intro f
      rw [List.mem_map]
      constructor
      · rintro ⟨e, he, rfl⟩; exact (hF e he).1
      · intro hf
        have h1 := (hEL (X f) (Y f)).mpr ((hadj _ _).mpr ⟨f, hf, Or.inl ⟨rfl, rfl⟩⟩)
        obtain ⟨e, he, h2⟩ : ∃ e ∈ EL, (e.1 = X f ∧ e.2 = Y f) ∨ (e.1 = Y f ∧ e.2 = X f) := by
          rcases h1 with h | h
          · exact ⟨_, h, Or.inl ⟨rfl, rfl⟩⟩
          · exact ⟨_, h, Or.inr ⟨rfl, rfl⟩⟩
        refine ⟨e, he, ?_⟩
        obtain ⟨h3, h4⟩ := hF e he
        by_contra hne
        have hx : X f = X (F e) ∨ X f = Y (F e) := by
          rcases h2 with ⟨a1, a2⟩ | ⟨a1, a2⟩ <;> rcases h4 with ⟨b1, b2⟩ | ⟨b1, b2⟩ <;> omega
        have hy : Y f = X (F e) ∨ Y f = Y (F e) := by
          rcases h2 with ⟨a1, a2⟩ | ⟨a1, a2⟩ <;> rcases h4 with ⟨b1, b2⟩ | ⟨b1, b2⟩ <;> omega
        exact hne (uniq (F e) h3 f hf hx hy)
  · rw [List.forall₂_map_left_iff]
    have : ∀ L L', List.Forall₂ (fun (e : ℕ × ℕ) (s : V3 ℝ × V3 ℝ) => im.values[e.1]? = some s.1 ∧ im.values[e.2]? = some s.2) L L' →
        (∀ e ∈ L, e ∈ EL) → List.Forall₂ (fun e s => Piece pl m (F e) s) L L' := by
      intro L L' h
      induction h with
      | nil => intro _; exact .nil
      | @cons e s _ _ h _ ih =>
        intro hs
        obtain ⟨hf, he⟩ := hF e (hs e (by simp))
        refine .cons ?_ (ih fun e h => hs e (by simp [h]))
        obtain ⟨p, hp1, hp2⟩ := hgood.value _ _ _ (L4 _ hf)
        obtain ⟨q, hq1, hq2⟩ := hgood.value _ _ _ (L5 _ hf)
        have key := (hL _ hf).2.2.2.2.2.2.1 p q hp2 hq2
        obtain ⟨s1, s2⟩ := s
        simp only at h
        rcases he with ⟨a1, a2⟩ | ⟨a1, a2⟩
        · rw [a1, hp1, a2, hq1] at h
          rw [← Option.some.inj h.1, ← Option.some.inj h.2]
          exact key
        · rw [a1, hq1, a2, hp1] at h
          rw [← Option.some.inj h.1, ← Option.some.inj h.2]
          exact piece_swap key
    exact this _ _ k3 fun _ h => h
  · intro c hc hcl q hq
    obtain ⟨i, hi, hone⟩ := k2' c hc hcl q hq
    have hne : adj g.d i ≠ ∅ := by intro h; rw [h] at hone; simp at hone
    obtain ⟨u, v, huv⟩ := hgood.surj i (hlt i hne)
    obtain ⟨q', hq1, hq2⟩ := hgood.value _ _ _ huv
    rw [hi] at hq1
    have := Option.some.inj hq1
    subst this
    obtain ⟨hDf, a, b, ha, hb, hm1, hm2, hm3⟩ := (hgood.dom u v).mp (by rw [huv]; simp)
    obtain ⟨f0, hf0, he0⟩ := (hD u v).mp hDf
    by_cases ho : Opposite pl m.v u v
    swap
    · -- one end of the edge is on the plane
      left
      have ho : ¬ height pl a * height pl b < 0 := fun h => ho ⟨a, b, ha, hb, h⟩
      obtain ⟨a', b', ha', hb', o1, o2⟩ := hq2
      simp only at ha' hb'
      rw [ha] at ha'; rw [hb] at hb'
      injection ha' with ha'; injection hb' with hb'
      subst ha' hb'
      by_cases h1 : height pl a = 0
      · rw [point_corner h1 (fun h => hm1 (h1.trans h.symm)) o1 o2]
        exact ⟨List.mem_of_getElem? ha, (onPlane_iff pl a).mpr h1⟩
      by_cases h2 : height pl b = 0
      · rw [point_corner h2 h1 o1 (Blmath.CH.onSegment_symm o2)]
        exact ⟨List.mem_of_getElem? hb, (onPlane_iff pl b).mpr h2⟩
      exfalso
      rcases lt_or_gt_of_ne h1 with h1 | h1 <;> rcases lt_or_gt_of_ne h2 with h2 | h2
      · exact hm3 ⟨h1, h2⟩
      · exact ho (mul_neg_of_neg_of_pos h1 h2)
      · exact ho (mul_neg_of_pos_of_neg h1 h2)
      · exact hm2 ⟨h1, h2⟩
    · right
      refine ⟨u, v, ho, hq2, ?_⟩
      by_contra hcon
      rw [not_or] at hcon
      obtain ⟨n1, n2⟩ := hcon
      have hmu := hman u v
      have hmem0 : f0 ∈ m.f.filter fun f => hasEdge f u v := List.mem_filter.mpr ⟨((hfm f0).mp hf0).1, he0⟩
      have hpos : 0 < (m.f.filter fun f => hasEdge f u v).length := List.length_pos_of_mem hmem0
      have htwo : (m.f.filter fun f => hasEdge f u v).length = 2 := by omega
      obtain ⟨f1, f2, hff⟩ := List.length_eq_two.mp htwo
      have hne12 : f1 ≠ f2 := by
        have := hdis.filter (fun f => hasEdge f u v)
        rw [hff] at this
        intro h
        rw [h] at this
        simp only [List.pairwise_cons] at this
        exact this.1 f2 (by simp) fun _ => rfl
      have node : ∀ f, f ∈ m.f.filter (fun f => hasEdge f u v) → f ∈ fs ∧ (i = X f ∨ i = Y f) := by
        intro f hf
        obtain ⟨w1, w2⟩ := List.mem_filter.mp hf
        have hfs' : f ∈ fs := (hfm f).mpr ⟨w1, straddles_of_opposite (hv f w1) w2 ho⟩
        refine ⟨hfs', ?_⟩
        have := (hL f hfs').2.2.2.2.2.2.2 (fun h => n2 ⟨f, w1, w2, h⟩) u v w2 ho
        rw [huv] at this
        rcases this with h | h
        · exact Or.inl (Option.some.inj h)
        · exact Or.inr (Option.some.inj h)
      obtain ⟨p1, p2⟩ := node f1 (by rw [hff]; simp)
      obtain ⟨p3, p4⟩ := node f2 (by rw [hff]; simp)
      obtain ⟨j, hj⟩ := Finset.card_eq_one.mp hone
      have nb : ∀ f ∈ fs, (i = X f → Y f = j) ∧ (i = Y f → X f = j) := by
        intro f hf
        constructor
        · intro h
          have : Y f ∈ adj g.d i := (hadj _ _).mpr ⟨f, hf, Or.inl ⟨h, rfl⟩⟩
          rw [hj] at this
          exact Finset.mem_singleton.mp this
        · intro h
          have : X f ∈ adj g.d i := (hadj _ _).mpr ⟨f, hf, Or.inr ⟨h, rfl⟩⟩
          rw [hj] at this
          exact Finset.mem_singleton.mp this
      have b1 := nb f1 p1
      have b2 := nb f2 p3
      refine hne12 (uniq f1 p1 f2 p3 ?_ ?_)
      · rcases p2 with h | h <;> rcases p4 with h' | h'
        · exact Or.inl (h'.symm.trans h)
        · exact Or.inr ((b2.2 h').trans (b1.1 h).symm)
        · exact Or.inr (h'.symm.trans h)
        · exact Or.inl ((b2.2 h').trans (b1.2 h).symm)
      · rcases p2 with h | h <;> rcases p4 with h' | h'
        · exact Or.inr ((b2.1 h').trans (b1.1 h).symm)
        · exact Or.inl (h'.symm.trans h)
        · exact Or.inl ((b2.1 h').trans (b1.2 h).symm)
        · exact Or.inr (h'.symm.trans h)
  · intro u v q ho hq h1 hnp hoth
    obtain ⟨f, hff⟩ := List.length_eq_one_iff.mp h1
    have hf : f ∈ m.f.filter fun f => hasEdge f u v := by rw [hff]; simp
    obtain ⟨w1, w2⟩ := List.mem_filter.mp hf
    have hfs' := (hfm f).mpr ⟨w1, straddles_of_opposite (hv f w1) w2 ho⟩
    obtain ⟨i, huv, hiXY⟩ : ∃ i, im.index u v = some i ∧ (i = X f ∨ i = Y f) := by
      rcases (hL f hfs').2.2.2.2.2.2.2 (hnp f w1 w2) u v w2 ho with h | h
      · exact ⟨_, h, Or.inl rfl⟩
      · exact ⟨_, h, Or.inr rfl⟩
    have hcard : (adj g.d i).card = 1 := by
      refine Finset.card_eq_one.mpr ⟨if i = X f then Y f else X f, ?_⟩
      ext j
      rw [Finset.mem_singleton, hadj]
      constructor
      · rintro ⟨f', hf', h⟩
        have he' := has f' hf' u v i huv (h.imp And.left And.left)
        have : f' ∈ m.f.filter fun f => hasEdge f u v := List.mem_filter.mpr ⟨((hfm f').mp hf').1, he'⟩
        rw [hff, List.mem_singleton] at this
        subst this
        rcases h with ⟨a1, a2⟩ | ⟨a1, a2⟩
        · rw [if_pos a1]; exact a2
        · rw [if_neg (fun h => L1 f' hf' (h.symm.trans a1))]; exact a2
      · intro h
        refine ⟨f, hfs', ?_⟩
        split at h
        · next h' => exact Or.inl ⟨h', h⟩
        · next h' => exact Or.inr ⟨hiXY.resolve_left h', h⟩
    obtain ⟨q', hq1, hq2⟩ := hgood.value _ _ _ huv
    have hqq : q' = q := crossPoint_unique ho hq2 hq
    subst hqq
    rcases k2'' i q' hcard hq1 with h | ⟨y, y1, y2, y3⟩
    · exact h
    · exfalso
      obtain ⟨u', v', huv'⟩ := hgood.surj y (hlt y y2)
      obtain ⟨z, hz1, hz2⟩ := hgood.value _ _ _ huv'
      rw [y3] at hz1
      rw [← Option.some.inj hz1] at hz2
      obtain ⟨hDf, _⟩ := (hgood.dom u' v').mp (by rw [huv']; simp)
      obtain ⟨f0, hf0, he0⟩ := (hD u' v').mp hDf
      refine hoth u' v' (fun h => ?_) ⟨f0, ((hfm f0).mp hf0).1, he0⟩ hz2
      have := index_samePair (m := im) h
      rw [huv, huv'] at this
      exact y1 (Option.some.inj this).symm

end Blmath.VS
