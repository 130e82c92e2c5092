import Verif.Spec.Chord
import Verif.Proofs.MeshSlice
import Verif.Proofs.Polyline

/-!
Consecutive vertices of walks through graphs with at most two neighbours per vertex; the two crossed edges of
a face; what a triangle and a plane have in common.
-/

namespace Blmath.CH
open Blmath.Geometry Blmath.Spec Blmath.Props

section lists
variable {P : Type}

theorem mem_pairs : ∀ (l : List P) (s : P × P), s ∈ pairs l ↔ ∃ i : ℕ, l[i]? = some s.1 ∧ l[i + 1]? = some s.2
  | [], s => by simp [pairs]
  | [a], s => by
    simp only [pairs, List.not_mem_nil, false_iff]
    rintro ⟨i, _, h⟩
    simp at h
  | a :: b :: r, s => by
    rw [pairs, List.mem_cons, mem_pairs (b :: r) s]
    constructor
    · rintro (rfl | ⟨i, h1, h2⟩)
      · exact ⟨0, rfl, rfl⟩
      · exact ⟨i + 1, by simpa using h1, by simpa using h2⟩
    · rintro ⟨i, h1, h2⟩
      cases i with
      | zero =>
        left
        simp at h1 h2
        exact Prod.ext h1.symm h2.symm
      | succ i => exact Or.inr ⟨i, by simpa using h1, by simpa using h2⟩

theorem mem_open (l : List P) (s : P × P) : s ∈ chainSegs l false ↔ ∃ i : ℕ, l[i]? = some s.1 ∧ l[i + 1]? = some s.2 := by
  rw [chainSegs, mem_pairs]
  simp [circuit]

theorem mem_closed (l : List P) (s : P × P) :
    s ∈ chainSegs l true ↔ ∃ i : ℕ, l[i]? = some s.1 ∧ l[(i + 1) % l.length]? = some s.2 := by
  rw [chainSegs, mem_pairs]
  cases l with
  | nil => simp [circuit]
  | cons a r =>
    have hc : circuit (a :: r) true = (a :: r) ++ [a] := by simp [circuit]
    rw [hc]
    have hget : ∀ i, i + 1 ≤ (a :: r).length → ((a :: r) ++ [a])[i + 1]? = (a :: r)[(i + 1) % (a :: r).length]? := by
      intro i hi
      rcases Nat.lt_or_ge (i + 1) (a :: r).length with h | h
      · rw [List.getElem?_append_left h, Nat.mod_eq_of_lt h]
      · have : i + 1 = (a :: r).length := by omega
        rw [this, Nat.mod_self, List.getElem?_append_right (by omega)]
        simp
    constructor
    · rintro ⟨i, h1, h2⟩
      have hlt : i + 1 < ((a :: r) ++ [a]).length := by
        by_contra hc
        rw [List.getElem?_eq_none (by omega)] at h2
        cases h2
      simp only [List.length_append, List.length_singleton] at hlt
      refine ⟨i, ?_, by rw [← hget i (by omega)]; exact h2⟩
      rw [List.getElem?_append_left (by omega)] at h1
      exact h1
    · rintro ⟨i, h1, h2⟩
      have hlt : i < (a :: r).length := by
        by_contra hc
        rw [List.getElem?_eq_none (by omega)] at h1
        cases h1
      refine ⟨i, ?_, by rw [hget i (by omega)]; exact h2⟩
      rw [List.getElem?_append_left hlt]
      exact h1

theorem pairs_fst : ∀ (w : List P), (pairs w).map Prod.fst = w.dropLast
  | [] => rfl
  | [a] => rfl
  | a :: b :: r => by rw [pairs, List.map_cons, pairs_fst (b :: r)]; rfl

/-- every vertex is the beginning of at most one segment -/
theorem firsts_sublist (l : List P) (closed : Bool) : ((chainSegs l closed).map Prod.fst).Sublist l := by
  rw [chainSegs, pairs_fst]
  cases closed with
  | false => simpa [circuit] using List.dropLast_sublist l
  | true =>
    cases l with
    | nil => simp [circuit]
    | cons a r =>
      have hc : circuit (a :: r) true = (a :: r) ++ [a] := by simp [circuit]
      rw [hc, List.dropLast_concat]

theorem forall₂_pairs {Q : Type} {R : P → Q → Prop} : ∀ {l : List P} {l' : List Q}, List.Forall₂ R l l' →
    List.Forall₂ (fun s t => R s.1 t.1 ∧ R s.2 t.2) (pairs l) (pairs l')
  | _, _, .nil => .nil
  | _, _, .cons _ .nil => .nil
  | _, _, .cons h1 (.cons h2 h) => .cons ⟨h1, h2⟩ (forall₂_pairs (.cons h2 h))

theorem forall₂_chainSegs {Q : Type} {R : P → Q → Prop} {l : List P} {l' : List Q} (h : List.Forall₂ R l l')
    (closed : Bool) : List.Forall₂ (fun s t => R s.1 t.1 ∧ R s.2 t.2) (chainSegs l closed) (chainSegs l' closed) := by
  refine forall₂_pairs ?_
  cases closed with
  | false => simpa [circuit] using h
  | true =>
    cases h with
    | nil => simp [circuit]
    | cons h1 h2 =>
      simp only [circuit, if_true, List.head?_cons, Option.toList_some]
      exact List.rel_append (.cons h1 h2) (.cons h1 .nil)

variable {R : P → P → Prop}

theorem segs_rel {l : List P} {closed : Bool} (hw : l.IsChain R)
    (hc : closed = true → 3 ≤ l.length ∧ ∃ x y, l.head? = some x ∧ l.getLast? = some y ∧ R y x)
    {s : P × P} (hs : s ∈ chainSegs l closed) : R s.1 s.2 := by
  have step : ∀ (i : ℕ) a b, l[i]? = some a → l[i + 1]? = some b → R a b := by
    intro i a b ha hb
    obtain ⟨hi, rfl⟩ := List.getElem?_eq_some_iff.mp hb
    obtain ⟨hi', rfl⟩ := List.getElem?_eq_some_iff.mp ha
    exact List.isChain_iff_getElem.mp hw i hi
  cases closed with
  | false =>
    obtain ⟨i, h1, h2⟩ := (mem_open l s).mp hs
    exact step i _ _ h1 h2
  | true =>
    obtain ⟨i, h1, h2⟩ := (mem_closed l s).mp hs
    obtain ⟨hn, x, y, hx, hy, hr⟩ := hc rfl
    have hi : i < l.length := (List.getElem?_eq_some_iff.mp h1).1
    rcases Nat.lt_or_ge (i + 1) l.length with h | h
    · rw [Nat.mod_eq_of_lt h] at h2
      exact step i _ _ h1 h2
    · have : i + 1 = l.length := by omega
      rw [this, Nat.mod_self] at h2
      rw [List.head?_eq_getElem?, h2] at hx
      rw [List.getLast?_eq_getElem?, show l.length - 1 = i by omega, h1] at hy
      injection hx with hx
      injection hy with hy
      rw [hx, hy]; exact hr

/-- no segment is passed in both directions -/
theorem not_back {l : List P} {closed : Bool} (hnd : l.Nodup) (hc : closed = true → 3 ≤ l.length) {a b : P}
    (h1 : (a, b) ∈ chainSegs l closed) (h2 : (b, a) ∈ chainSegs l closed) : False := by
  have inj : ∀ (i j : ℕ) x, l[i]? = some x → l[j]? = some x → i = j := by
    intro i j x hi hj
    have := (List.getElem?_eq_some_iff.mp hi).1
    exact (List.getElem?_inj this hnd).mp (hi.trans hj.symm)
  cases closed with
  | false =>
    obtain ⟨i, e1, e2⟩ := (mem_open l _).mp h1
    obtain ⟨j, e3, e4⟩ := (mem_open l _).mp h2
    have := inj _ _ _ e2 e3
    have := inj _ _ _ e1 e4
    omega
  | true =>
    obtain ⟨i, e1, e2⟩ := (mem_closed l _).mp h1
    obtain ⟨j, e3, e4⟩ := (mem_closed l _).mp h2
    have hn := hc rfl
    have hi : i < l.length := (List.getElem?_eq_some_iff.mp e1).1
    have k1 := inj _ _ _ e2 e3
    have k2 := inj _ _ _ e1 e4
    rcases Nat.lt_or_ge (i + 1) l.length with h | h
    · rw [Nat.mod_eq_of_lt h] at k1
      subst k1
      rcases Nat.lt_or_ge (i + 1 + 1) l.length with h' | h'
      · rw [Nat.mod_eq_of_lt h'] at k2; omega
      · rw [show i + 1 + 1 = l.length by omega, Nat.mod_self] at k2; omega
    · rw [show i + 1 = l.length by omega, Nat.mod_self] at k1
      subst k1
      rw [Nat.mod_eq_of_lt (by omega)] at k2
      omega

/-- in a component with at most two neighbours per vertex, walked through once, neighbours are next to each other -/
theorem neighbours {l : List P} {closed : Bool} (hsym : ∀ a b, R a b → R b a)
    (hdeg : ∀ a b c d, R a b → R a c → R a d → b = c ∨ b = d ∨ c = d) (hnd : l.Nodup) (hw : l.IsChain R)
    (hin : ∀ a ∈ l, ∀ b, R a b → b ∈ l)
    (hc : closed = true → 3 ≤ l.length ∧ ∃ x y, l.head? = some x ∧ l.getLast? = some y ∧ R y x)
    (ho : closed = false → ∃ e ∈ l, ∃ e', ∀ e'', R e e'' ↔ e'' = e') {a b : P} (ha : a ∈ l) (hab : R a b) (hne : a ≠ b) :
    (a, b) ∈ chainSegs l closed ∨ (b, a) ∈ chainSegs l closed := by
  have inj : ∀ (i j : ℕ) x, l[i]? = some x → l[j]? = some x → i = j := by
    intro i j x hi hj
    have := (List.getElem?_eq_some_iff.mp hi).1
    exact (List.getElem?_inj this hnd).mp (hi.trans hj.symm)
  have step : ∀ (i : ℕ) a b, l[i]? = some a → l[i + 1]? = some b → R a b := by
    intro i a b ha hb
    obtain ⟨hi, rfl⟩ := List.getElem?_eq_some_iff.mp hb
    obtain ⟨hi', rfl⟩ := List.getElem?_eq_some_iff.mp ha
    exact List.isChain_iff_getElem.mp hw i hi
  -- a vertex with one before and one after it
  have inner : ∀ (i : ℕ) x y, l[i + 1]? = some x → i + 2 < l.length → R x y →
      (x, y) ∈ pairs l ∨ (y, x) ∈ pairs l := by
    intro i x y hx hi hxy
    have hp : l[i]? = some l[i] := List.getElem?_eq_getElem (by omega)
    have hs : l[i + 1 + 1]? = some l[i + 2] := List.getElem?_eq_getElem (by omega)
    have r1 := hsym _ _ (step i _ _ hp hx)
    have r2 := step (i + 1) _ _ hx hs
    rcases hdeg x y _ _ hxy r1 r2 with h | h | h
    · right; rw [h]; exact (mem_pairs l _).mpr ⟨i, hp, hx⟩
    · left; rw [h]; exact (mem_pairs l _).mpr ⟨i + 1, hx, hs⟩
    · have := inj i (i + 1 + 1) _ hp (h ▸ hs); omega
  obtain ⟨i, hi, hia⟩ := List.getElem_of_mem ha
  have hia' : l[i]? = some a := by rw [List.getElem?_eq_getElem hi, hia]
  obtain ⟨j, hj, hjb⟩ := List.getElem_of_mem (hin a ha b hab)
  have hjb' : l[j]? = some b := by rw [List.getElem?_eq_getElem hj, hjb]
  have hij : i ≠ j := by
    rintro rfl
    exact hne (Option.some.inj (hia'.symm.trans hjb'))
  cases closed with
  | false =>
    have e : chainSegs l false = pairs l := by simp [chainSegs, circuit]
    rw [e]
    by_cases h1 : 0 < i ∧ i + 1 < l.length
    · exact inner (i - 1) a b (by rwa [show i - 1 + 1 = i by omega]) (by omega) hab
    by_cases h2 : 0 < j ∧ j + 1 < l.length
    · exact (inner (j - 1) b a (by rwa [show j - 1 + 1 = j by omega]) (by omega) (hsym _ _ hab)).symm
    by_cases h3 : l.length = 2
    · by_cases h0 : i = 0
      · left; refine (mem_pairs l _).mpr ⟨0, h0 ▸ hia', ?_⟩
        rw [show 0 + 1 = j by omega]; exact hjb'
      · right; refine (mem_pairs l _).mpr ⟨0, ?_, ?_⟩
        · rw [show 0 = j by omega]; exact hjb'
        · rw [show 0 + 1 = i by omega]; exact hia'
    -- both are ends, so nothing has only one neighbour
    exfalso
    obtain ⟨e, he, e', hu⟩ := ho rfl
    have ends : ∀ (i j : ℕ) a b, i < l.length → j < l.length → l[i]? = some a → l[j]? = some b → R a b → i ≠ j →
        ¬ (0 < i ∧ i + 1 < l.length) → ¬ (0 < j ∧ j + 1 < l.length) → e ≠ a := by
      rintro i j a b hi hj hia' hjb' hab hij h1 h2 rfl
      by_cases h0 : i = 0
      · subst h0
        have hs : l[0 + 1]? = some l[1] := List.getElem?_eq_getElem (by omega)
        have q1 := (hu _).mp (step 0 _ _ hia' hs)
        have q2 := (hu _).mp hab
        have := inj (0 + 1) j e' (q1 ▸ hs) (q2 ▸ hjb')
        omega
      · have hp : l[i - 1]? = some l[i - 1] := List.getElem?_eq_getElem (by omega)
        have q1 := (hu _).mp (hsym _ _ (step (i - 1) _ _ hp (by rwa [show i - 1 + 1 = i by omega])))
        have q2 := (hu _).mp hab
        have := inj (i - 1) j e' (q1 ▸ hp) (q2 ▸ hjb')
        omega
    obtain ⟨k, hk, hke⟩ := List.getElem_of_mem he
    have hke' : l[k]? = some e := by rw [List.getElem?_eq_getElem hk, hke]
    by_cases h5 : 0 < k ∧ k + 1 < l.length
    · have hp : l[k - 1]? = some l[k - 1] := List.getElem?_eq_getElem (by omega)
      have hs : l[k + 1]? = some l[k + 1] := List.getElem?_eq_getElem (by omega)
      have q1 := (hu _).mp (hsym _ _ (step (k - 1) _ _ hp (by rwa [show k - 1 + 1 = k by omega])))
      have q2 := (hu _).mp (step k _ _ hke' hs)
      have := inj (k - 1) (k + 1) e' (q1 ▸ hp) (q2 ▸ hs)
      omega
    · have k1 := ends i j a b hi hj hia' hjb' hab hij h1 h2
      have k2 := ends j i b a hj hi hjb' hia' (hsym _ _ hab) (Ne.symm hij) h2 h1
      have : k = i ∨ k = j := by omega
      rcases this with rfl | rfl
      · exact k1 (Option.some.inj (hke'.symm.trans hia'))
      · exact k2 (Option.some.inj (hke'.symm.trans hjb'))
  | true =>
    obtain ⟨hn, x, y, hx, hy, hr⟩ := hc rfl
    have sub : ∀ s, s ∈ pairs l → s ∈ chainSegs l true := by
      intro s hs
      obtain ⟨i, h1, h2⟩ := (mem_pairs l s).mp hs
      refine (mem_closed l s).mpr ⟨i, h1, ?_⟩
      rw [Nat.mod_eq_of_lt (List.getElem?_eq_some_iff.mp h2).1]
      exact h2
    have hx0 : l[0]? = some x := by rw [← List.head?_eq_getElem?]; exact hx
    have hyn : l[l.length - 1]? = some y := by rw [← List.getLast?_eq_getElem?]; exact hy
    have last : (y, x) ∈ chainSegs l true := by
      refine (mem_closed l _).mpr ⟨l.length - 1, hyn, ?_⟩
      rw [show l.length - 1 + 1 = l.length by omega, Nat.mod_self]; exact hx0
    by_cases h1 : 0 < i ∧ i + 1 < l.length
    · exact (inner (i - 1) a b (by rwa [show i - 1 + 1 = i by omega]) (by omega) hab).imp (sub _) (sub _)
    by_cases h0 : i = 0
    · subst h0
      have hax : a = x := Option.some.inj (hia'.symm.trans hx0)
      subst hax
      have hs : l[0 + 1]? = some l[1] := List.getElem?_eq_getElem (by omega)
      rcases hdeg a b _ _ hab (step 0 _ _ hia' hs) (hsym _ _ hr) with h | h | h
      · left; rw [h]; exact sub _ ((mem_pairs l _).mpr ⟨0, hia', hs⟩)
      · right; rw [h]; exact last
      · have := inj (0 + 1) (l.length - 1) _ hs (h ▸ hyn); omega
    · have hil : i = l.length - 1 := by omega
      have hay : a = y := by rw [← hil] at hyn; exact Option.some.inj (hia'.symm.trans hyn)
      subst hay
      have hp : l[i - 1]? = some l[i - 1] := List.getElem?_eq_getElem (by omega)
      have hp' : l[i - 1 + 1]? = some a := by rwa [show i - 1 + 1 = i by omega]
      rcases hdeg a b _ _ hab (hsym _ _ (step (i - 1) _ _ hp hp')) hr with h | h | h
      · right; rw [h]; exact sub _ ((mem_pairs l _).mpr ⟨i - 1, hp, hp'⟩)
      · left; rw [h]; exact last
      · have := inj (i - 1) 0 _ hp (h ▸ hx0); omega

end lists

section faces
variable {pl : Plane ℝ} {m : Mesh ℝ}

theorem opposite_symm {vs : List (V3 ℝ)} {u v : ℕ} (h : Opposite pl vs u v) : Opposite pl vs v u := by
  obtain ⟨a, b, ha, hb, h⟩ := h
  exact ⟨b, a, hb, ha, by rwa [mul_comm]⟩

/-- the edge between two vertices, smaller number first -/
def ek (u v : ℕ) : ℕ × ℕ := (min u v, max u v)

theorem edge_cases {f : ℕ × ℕ × ℕ} {e : ℕ × ℕ} (h : hasEdge f e.1 e.2 = true) (hlt : e.1 < e.2) :
    e = ek f.1 f.2.1 ∨ e = ek f.1 f.2.2 ∨ e = ek f.2.1 f.2.2 := by
  obtain ⟨x, y, z⟩ := f
  obtain ⟨p, q⟩ := e
  simp only [hasEdge, corner, Bool.and_eq_true, decide_eq_true_eq] at h
  simp only [ek, Prod.mk.injEq] at *
  omega

theorem opposite_ek {vs : List (V3 ℝ)} {u v : ℕ} : Opposite pl vs (ek u v).1 (ek u v).2 ↔ Opposite pl vs u v := by
  unfold ek
  rcases le_total u v with h | h
  · rw [min_eq_left h, max_eq_right h]
  · rw [min_eq_right h, max_eq_left h]
    exact ⟨opposite_symm, opposite_symm⟩

theorem some_not_opposite {vs : List (V3 ℝ)} {u v w : ℕ} (h1 : Opposite pl vs u v) (h2 : Opposite pl vs u w) :
    ¬ Opposite pl vs v w := by
  rintro ⟨b, c, hb, hc, h3⟩
  obtain ⟨a, b', ha, hb', h1⟩ := h1
  obtain ⟨a', c', ha', hc', h2⟩ := h2
  rw [ha] at ha'; rw [hb] at hb'; rw [hc] at hc'
  injection ha' with ha'; injection hb' with hb'; injection hc' with hc'
  subst ha' hb' hc'
  have : 0 ≤ (height pl a * height pl b * (height pl a * height pl c)) * (height pl b * height pl c) := by
    have : (height pl a * height pl b * (height pl a * height pl c)) * (height pl b * height pl c) =
      (height pl a * height pl b * height pl c) ^ 2 := by ring
    rw [this]; positivity
  have k := mul_pos_of_neg_of_neg h1 h2
  nlinarith [mul_neg_of_pos_of_neg k h3]

/-- a face has no more than two crossed edges -/
theorem third {f : ℕ × ℕ × ℕ} {a b c : ℕ × ℕ} (ha : CrossedEdge pl m a) (hb : CrossedEdge pl m b) (hc : CrossedEdge pl m c)
    (fa : hasEdge f a.1 a.2 = true) (fb : hasEdge f b.1 b.2 = true) (fc : hasEdge f c.1 c.2 = true)
    (hab : a ≠ b) (hac : a ≠ c) : b = c := by
  by_contra hbc
  obtain ⟨x, y, z⟩ := f
  have ca := edge_cases fa ha.1
  have cb := edge_cases fb hb.1
  have cc := edge_cases fc hc.1
  have oa := ha.2.2
  have ob := hb.2.2
  have oc := hc.2.2
  simp only at ca cb cc
  have key : ∀ (p q r : ℕ × ℕ), (p = ek x y ∧ q = ek x z ∧ r = ek y z) → Opposite pl m.v p.1 p.2 → Opposite pl m.v q.1 q.2 →
      Opposite pl m.v r.1 r.2 → False := by
    rintro p q r ⟨rfl, rfl, rfl⟩ h1 h2 h3
    exact some_not_opposite (opposite_ek.mp h1) (opposite_ek.mp h2) (opposite_ek.mp h3)
  rcases ca with h1 | h1 | h1 <;> rcases cb with h2 | h2 | h2 <;> rcases cc with h3 | h3 | h3 <;>
    first
    | exact hab (h1.trans h2.symm)
    | exact hac (h1.trans h3.symm)
    | exact hbc (h2.trans h3.symm)
    | exact key _ _ _ ⟨h1, h2, h3⟩ oa ob oc
    | exact key _ _ _ ⟨h1, h3, h2⟩ oa oc ob
    | exact key _ _ _ ⟨h2, h1, h3⟩ ob oa oc
    | exact key _ _ _ ⟨h2, h3, h1⟩ ob oc oa
    | exact key _ _ _ ⟨h3, h1, h2⟩ oc oa ob
    | exact key _ _ _ ⟨h3, h2, h1⟩ oc ob oa

theorem linked_symm {a b : ℕ × ℕ} (h : Linked pl m a b) : Linked pl m b a := by
  obtain ⟨h1, h2, h3, f, hf, h4, h5⟩ := h
  exact ⟨h1.symm, h3, h2, f, hf, h5, h4⟩

/-- no crossed edge shares faces with more than two others -/
theorem linked_deg (hman : EdgeManifold m) (a b c d : ℕ × ℕ) (h1 : Linked pl m a b) (h2 : Linked pl m a c)
    (h3 : Linked pl m a d) : b = c ∨ b = d ∨ c = d := by
  obtain ⟨n1, ca, cb, f1, m1, a1, b1⟩ := h1
  obtain ⟨n2, _, cc, f2, m2, a2, b2⟩ := h2
  obtain ⟨n3, _, cd, f3, m3, a3, b3⟩ := h3
  have hl := hman a.1 a.2
  have i1 : f1 ∈ m.f.filter fun f => hasEdge f a.1 a.2 := List.mem_filter.mpr ⟨m1, a1⟩
  have i2 : f2 ∈ m.f.filter fun f => hasEdge f a.1 a.2 := List.mem_filter.mpr ⟨m2, a2⟩
  have i3 : f3 ∈ m.f.filter fun f => hasEdge f a.1 a.2 := List.mem_filter.mpr ⟨m3, a3⟩
  have : f1 = f2 ∨ f1 = f3 ∨ f2 = f3 := by
    generalize (m.f.filter fun f => hasEdge f a.1 a.2) = F at *
    match F, hl with
    | [], _ => simp at i1
    | [g], _ => simp at i1 i2; exact Or.inl (i1.trans i2.symm)
    | [g, h], _ =>
      simp only [List.mem_cons, List.not_mem_nil, or_false] at i1 i2 i3
      rcases i1 with rfl | rfl <;> rcases i2 with rfl | rfl <;> rcases i3 with rfl | rfl <;> simp
  rcases this with rfl | rfl | rfl
  · exact Or.inl (third ca cb cc a1 b1 b2 n1 n2)
  · exact Or.inr (Or.inl (third ca cb cd a1 b1 b3 n1 n3))
  · exact Or.inr (Or.inr (third ca cc cd a2 b2 b3 n2 n3))

/-- two edges determine the face -/
theorem same_face {f g : ℕ × ℕ × ℕ} {a b : ℕ × ℕ} (pf : ProperFace f) (pg : ProperFace g) (ha : a.1 < a.2) (hb : b.1 < b.2)
    (hab : a ≠ b) (fa : hasEdge f a.1 a.2 = true) (fb : hasEdge f b.1 b.2 = true) (ga : hasEdge g a.1 a.2 = true)
    (gb : hasEdge g b.1 b.2 = true) : SameCorners f g := by
  have key : ∀ f : ℕ × ℕ × ℕ, ProperFace f → hasEdge f a.1 a.2 = true → hasEdge f b.1 b.2 = true →
      ∀ u, corner f u = true ↔ (u = a.1 ∨ u = a.2 ∨ u = b.1 ∨ u = b.2) := by
    rintro ⟨x, y, z⟩ pf fa fb u
    have ca := edge_cases fa ha
    have cb := edge_cases fb hb
    obtain ⟨p, q⟩ := a
    obtain ⟨r, s⟩ := b
    simp only [ProperFace] at pf
    simp only [corner, decide_eq_true_eq]
    simp only [ek, Prod.mk.injEq, ne_eq] at *
    rcases ca with ⟨h1, h2⟩ | ⟨h1, h2⟩ | ⟨h1, h2⟩ <;> rcases cb with ⟨h3, h4⟩ | ⟨h3, h4⟩ | ⟨h3, h4⟩ <;> omega
  intro u
  rw [Bool.eq_iff_iff, key f pf fa fb u, key g pg ga gb u]

/-- a face with corners on both sides has two crossed edges -/
theorem two_edges (hoff : ∀ p ∈ m.v, ¬ OnPlane pl p) {f : ℕ × ℕ × ℕ} (hf : f ∈ m.f) (pf : ProperFace f)
    (hv : f.1 < m.v.length ∧ f.2.1 < m.v.length ∧ f.2.2 < m.v.length) (hs : Straddles pl m.v f) :
    ∃ a b, Linked pl m a b ∧ hasEdge f a.1 a.2 = true ∧ hasEdge f b.1 b.2 = true := by
  obtain ⟨x, y, z⟩ := f
  simp only [ProperFace] at pf
  have mk : ∀ u v, u ≠ v → corner (x, y, z) u = true → corner (x, y, z) v = true → Opposite pl m.v u v →
      CrossedEdge pl m (ek u v) ∧ hasEdge (x, y, z) (ek u v).1 (ek u v).2 = true := by
    intro u v huv hu hv ho
    have : hasEdge (x, y, z) (ek u v).1 (ek u v).2 = true := by
      unfold ek hasEdge
      rcases le_total u v with h | h
      · rw [min_eq_left h, max_eq_right h]
        simp [huv, hu, hv]
      · rw [min_eq_right h, max_eq_left h]
        simp [huv.symm, hu, hv]
    exact ⟨⟨by simp only [ek]; omega, ⟨_, hf, this⟩, opposite_ek.mpr ho⟩, this⟩
  have cx : corner (x, y, z) x = true := by simp [corner]
  have cy : corner (x, y, z) y = true := by simp [corner]
  have cz : corner (x, y, z) z = true := by simp [corner]
  rcases (straddles_cases pl m hoff (x, y, z) hv).1 hs with ⟨_, h1, h2⟩ | ⟨h1, _, h2⟩ | ⟨h1, h2, _⟩
  · obtain ⟨a1, a2⟩ := mk x z pf.2.2 cx cz h1
    obtain ⟨b1, b2⟩ := mk y z pf.2.1 cy cz h2
    exact ⟨_, _, ⟨by simp only [ek, ne_eq, Prod.mk.injEq]; omega, a1, b1, _, hf, a2, b2⟩, a2, b2⟩
  · obtain ⟨a1, a2⟩ := mk x y pf.1 cx cy h1
    obtain ⟨b1, b2⟩ := mk y z pf.2.1 cy cz h2
    exact ⟨_, _, ⟨by simp only [ek, ne_eq, Prod.mk.injEq]; omega, a1, b1, _, hf, a2, b2⟩, a2, b2⟩
  · obtain ⟨a1, a2⟩ := mk x y pf.1 cx cy h1
    obtain ⟨b1, b2⟩ := mk x z pf.2.2 cx cz h2
    exact ⟨_, _, ⟨by simp only [ek, ne_eq, Prod.mk.injEq]; omega, a1, b1, _, hf, a2, b2⟩, a2, b2⟩

end faces

section geometry
variable {pl : Plane ℝ}

theorem onSegment_symm {a b q : V3 ℝ} (h : OnSegment a b q) : OnSegment b a q := by
  obtain ⟨t, h0, h1, rfl⟩ := h
  refine ⟨1 - t, by linarith, by linarith, ?_⟩
  ext <;> simp only [along, vec3] <;> ring

theorem triangle_swap {a b c q : V3 ℝ} (h : InTriangle a b c q) : InTriangle a c b q := by
  obtain ⟨s, t, h0, h1, h2, rfl⟩ := h
  refine ⟨t, s, h1, h0, by linarith, ?_⟩
  ext <;> simp only [along, vec3] <;> ring

theorem triangle_turn {a b c q : V3 ℝ} (h : InTriangle a b c q) : InTriangle b c a q := by
  obtain ⟨s, t, h0, h1, h2, rfl⟩ := h
  refine ⟨t, 1 - s - t, h1, by linarith, by linarith, ?_⟩
  ext <;> simp only [along, vec3] <;> ring

/-- a triangle with one corner on one side of the plane and two on the other meets it in a segment -/
theorem chord_core {a b c p q : V3 ℝ} (h1 : height pl a * height pl b < 0) (hp : OnPlane pl p) (hp' : OnSegment a b p) (hq : OnPlane pl q) (hq' : OnSegment a c q) (x : V3 ℝ) :
    OnSegment p q x ↔ OnPlane pl x ∧ InTriangle a b c x := by
  obtain ⟨t, t0, t1, rfl⟩ := hp'
  obtain ⟨r, r0, r1, rfl⟩ := hq'
  rw [onPlane_iff] at hp hq ⊢
  have hh : ∀ s k, height pl (along (along a s (vec3 a b)) k (vec3 a c)) =
      height pl a + s * (height pl b - height pl a) + k * (height pl c - height pl a) := by
    intro s k
    simp only [height, along, vec3, inner3]; ring
  have hp2 : height pl a + t * (height pl b - height pl a) = 0 := by
    rw [← hp]; simp only [height, along, vec3, inner3]; ring
  have hq2 : height pl a + r * (height pl c - height pl a) = 0 := by
    rw [← hq]; simp only [height, along, vec3, inner3]; ring
  have ha0 : height pl a ≠ 0 := by rintro h; rw [h] at h1; simp at h1
  have ht : t ≠ 0 := by rintro rfl; simp at hp2; exact ha0 hp2
  have hr : r ≠ 0 := by rintro rfl; simp at hq2; exact ha0 hq2
  have tpos : 0 < t := lt_of_le_of_ne t0 ht.symm
  have rpos : 0 < r := lt_of_le_of_ne r0 hr.symm
  constructor
  · rintro ⟨k, k0, k1, rfl⟩
    have e : along (along a t (vec3 a b)) k (vec3 (along a t (vec3 a b)) (along a r (vec3 a c))) =
        along (along a (t * (1 - k)) (vec3 a b)) (r * k) (vec3 a c) := by
      ext <;> simp only [along, vec3] <;> ring
    rw [e]
    refine ⟨?_, t * (1 - k), r * k, mul_nonneg t0 (by linarith), mul_nonneg r0 k0, ?_, rfl⟩
    · rw [hh]
      linear_combination (1 - k) * hp2 + k * hq2
    · nlinarith
  · rintro ⟨hx, s, k, s0, k0, hsk, rfl⟩
    rw [hh] at hx
    refine ⟨k / r, div_nonneg k0 r0, ?_, ?_⟩
    · -- s / t + k / r = 1
      have e1 : height pl b - height pl a = - height pl a / t := by
        rw [eq_div_iff ht]; linarith
      have e2 : height pl c - height pl a = - height pl a / r := by
        rw [eq_div_iff hr]; linarith
      rw [e1, e2] at hx
      have : height pl a * (1 - s / t - k / r) = 0 := by
        rw [← hx]; ring
      have h3 : 1 - s / t - k / r = 0 := (mul_eq_zero.mp this).resolve_left ha0
      have : 0 ≤ s / t := div_nonneg s0 t0
      linarith
    · have e1 : height pl b - height pl a = - height pl a / t := by
        rw [eq_div_iff ht]; linarith
      have e2 : height pl c - height pl a = - height pl a / r := by
        rw [eq_div_iff hr]; linarith
      rw [e1, e2] at hx
      have : height pl a * (1 - s / t - k / r) = 0 := by
        rw [← hx]; ring
      have h3 : 1 - s / t - k / r = 0 := (mul_eq_zero.mp this).resolve_left ha0
      have hs : s = t * (1 - k / r) := by
        have : s / t = 1 - k / r := by linarith
        rw [← this]; field_simp
      have hk : k = r * (k / r) := by field_simp
      generalize k / r = w at *
      rw [hs, hk]
      ext <;> simp only [along, vec3] <;> ring

theorem inFace_iff {m : Mesh ℝ} {x y z : ℕ} {a b c : V3 ℝ} (ha : m.v[x]? = some a) (hb : m.v[y]? = some b) (hc : m.v[z]? = some c)
    (q : V3 ℝ) : InFace m (x, y, z) q ↔ InTriangle a b c q := by
  unfold InFace
  simp [ha, hb, hc]

theorem crossPoint_ek {m : Mesh ℝ} {u v : ℕ} {q : V3 ℝ} (h : CrossPoint pl m (ek u v) q) :
    ∃ a b, m.v[u]? = some a ∧ m.v[v]? = some b ∧ OnPlane pl q ∧ OnSegment a b q := by
  obtain ⟨a, b, ha, hb, h1, h2⟩ := h
  unfold ek at ha hb
  rcases le_total u v with h | h
  · rw [min_eq_left h] at ha
    rw [max_eq_right h] at hb
    exact ⟨a, b, ha, hb, h1, h2⟩
  · rw [min_eq_right h] at ha
    rw [max_eq_left h] at hb
    exact ⟨b, a, hb, ha, h1, onSegment_symm h2⟩

/-- the points of two crossed edges of a face bound what it has in common with the plane -/
theorem chord_of {m : Mesh ℝ} {f : ℕ × ℕ × ℕ} {e e' : ℕ × ℕ} {p q : V3 ℝ} (hne : e ≠ e') (ce : CrossedEdge pl m e)
    (ce' : CrossedEdge pl m e') (fe : hasEdge f e.1 e.2 = true) (fe' : hasEdge f e'.1 e'.2 = true)
    (hp : CrossPoint pl m e p) (hq : CrossPoint pl m e' q) : Chord pl m f (p, q) := by
  obtain ⟨x, y, z⟩ := f
  -- corner `u` between the edges to `v` and `w`
  have key : ∀ u v w p q, CrossPoint pl m (ek u v) p → CrossPoint pl m (ek u w) q → Opposite pl m.v u v → Opposite pl m.v u w →
      ∃ a b c, m.v[u]? = some a ∧ m.v[v]? = some b ∧ m.v[w]? = some c ∧
        ∀ x, OnSegment p q x ↔ OnPlane pl x ∧ InTriangle a b c x := by
    intro u v w p q hp hq ho ho'
    obtain ⟨a, b, ha, hb, h1, h2⟩ := crossPoint_ek hp
    obtain ⟨a', c, ha', hc, h3, h4⟩ := crossPoint_ek hq
    obtain ⟨a1, b1, ha1, hb1, h5⟩ := ho
    obtain ⟨a2, c2, ha2, hc2, h6⟩ := ho'
    rw [ha] at ha' ha1 ha2
    rw [hb] at hb1
    rw [hc] at hc2
    injection ha' with ha'; injection ha1 with ha1; injection ha2 with ha2; injection hb1 with hb1; injection hc2 with hc2
    subst ha' ha1 ha2 hb1 hc2
    exact ⟨a, b, c, ha, hb, hc, chord_core h5 h1 h2 h3 h4⟩
  have ekc : ∀ u v, ek u v = ek v u := by intro u v; simp only [ek, min_comm, max_comm]
  have o1 := ce.2.2
  have o2 := ce'.2.2
  rcases edge_cases fe ce.1 with h1 | h1 | h1 <;> rcases edge_cases fe' ce'.1 with h2 | h2 | h2 <;> simp only at h1 h2 <;>
    first
    | exact absurd (h1.trans h2.symm) hne
    | skip
  · obtain ⟨a, b, c, ha, hb, hc, k⟩ := key x y z p q (h1 ▸ hp) (h2 ▸ hq) (opposite_ek.mp (h1 ▸ o1)) (opposite_ek.mp (h2 ▸ o2))
    intro w; rw [inFace_iff ha hb hc]; exact k w
  · rw [ekc] at h1
    obtain ⟨a, b, c, ha, hb, hc, k⟩ := key y x z p q (h1 ▸ hp) (h2 ▸ hq) (opposite_ek.mp (h1 ▸ o1)) (opposite_ek.mp (h2 ▸ o2))
    intro w; rw [inFace_iff hb ha hc]
    exact (k w).trans (and_congr_right fun _ => ⟨fun h => triangle_turn (triangle_turn (triangle_swap h)),
      fun h => triangle_swap (triangle_turn h)⟩)
  · obtain ⟨a, b, c, ha, hb, hc, k⟩ := key x z y p q (h1 ▸ hp) (h2 ▸ hq) (opposite_ek.mp (h1 ▸ o1)) (opposite_ek.mp (h2 ▸ o2))
    intro w; rw [inFace_iff ha hc hb]
    exact (k w).trans (and_congr_right fun _ => ⟨triangle_swap, triangle_swap⟩)
  · rw [ekc] at h1 h2
    obtain ⟨a, b, c, ha, hb, hc, k⟩ := key z x y p q (h1 ▸ hp) (h2 ▸ hq) (opposite_ek.mp (h1 ▸ o1)) (opposite_ek.mp (h2 ▸ o2))
    intro w; rw [inFace_iff hb hc ha]
    exact (k w).trans (and_congr_right fun _ => ⟨triangle_turn, fun h => triangle_turn (triangle_turn h)⟩)
  · rw [ekc] at h2
    obtain ⟨a, b, c, ha, hb, hc, k⟩ := key y z x p q (h1 ▸ hp) (h2 ▸ hq) (opposite_ek.mp (h1 ▸ o1)) (opposite_ek.mp (h2 ▸ o2))
    intro w; rw [inFace_iff hc ha hb]
    exact (k w).trans (and_congr_right fun _ => ⟨fun h => triangle_turn (triangle_turn h), triangle_turn⟩)
  · rw [ekc] at h1 h2
    obtain ⟨a, b, c, ha, hb, hc, k⟩ := key z y x p q (h1 ▸ hp) (h2 ▸ hq) (opposite_ek.mp (h1 ▸ o1)) (opposite_ek.mp (h2 ▸ o2))
    intro w; rw [inFace_iff hc hb ha]
    exact (k w).trans (and_congr_right fun _ => ⟨fun h => triangle_swap (triangle_turn (triangle_turn h)),
      fun h => triangle_swap (triangle_turn (triangle_turn h))⟩)

end geometry

end Blmath.CH
