import Verif.Proofs.EulerPath
import Mathlib.Tactic.IntervalCases
import Mathlib.Order.Interval.Finset.Nat

/-!
Property C30: Euler path extraction.
-/

namespace Blmath.Props
open Blmath.Geometry Graph

/-- the graph after adding the edges of a list -/
def graphOf (ver : PyVer) (size : ℕ) (es : List (ℕ × ℕ)) : PyM Graph :=
  es.foldlM (fun g e => addEdge ver g (some e.1) (some e.2)) (Graph.new size)

/-- **C30.** Graphs made with `add_edge` (different, in-range endpoints) are well formed and hold
exactly the given edges, in both directions. -/
theorem C30_build (ver : PyVer) (size : ℕ) (es : List (ℕ × ℕ))
    (h : ∀ e ∈ es, e.1 < size ∧ e.2 < size ∧ e.1 ≠ e.2) :
    ∃ g, graphOf ver size es = .ok g ∧ GoodGraph g.d ∧
      ∀ a b, b ∈ adj g.d a ↔ (a, b) ∈ es ∨ (b, a) ∈ es := by
  have key : ∀ (es : List (ℕ × ℕ)) (g : Graph), g.size = size → GoodGraph g.d →
      (∀ e ∈ es, e.1 < size ∧ e.2 < size ∧ e.1 ≠ e.2) →
      ∃ g', es.foldlM (fun g e => addEdge ver g (some e.1) (some e.2)) g = .ok g' ∧
        GoodGraph g'.d ∧ ∀ a b, b ∈ adj g'.d a ↔ b ∈ adj g.d a ∨ (a, b) ∈ es ∨ (b, a) ∈ es := by
    intro es
    induction es with
    | nil => intro g _ hg _; exact ⟨g, rfl, hg, by simp⟩
    | cons e es ih =>
      intro g hs hg he
      obtain ⟨h1, h2, h3⟩ := he e (by simp)
      obtain ⟨d', e1, e2, e3⟩ := addEdge_spec ver g hg e.1 e.2 (hs ▸ h1) (hs ▸ h2) h3
      obtain ⟨g', f1, f2, f3⟩ := ih ⟨g.size, d'⟩ hs e2 fun x hx => he x (by simp [hx])
      refine ⟨g', ?_, f2, ?_⟩
      · rw [List.foldlM_cons, e1]; exact f1
      · intro a b
        rw [f3, e3]
        obtain ⟨x, y⟩ := e
        simp only [List.mem_cons, Prod.mk.injEq]
        constructor
        · rintro ((h | ⟨h, h'⟩ | ⟨h, h'⟩) | h | h) <;> simp [h, *]
        · rintro (h | (⟨h, h'⟩ | h) | ⟨h, h'⟩ | h) <;> simp [h, *]
  obtain ⟨g, h1, h2, h3⟩ := key es (Graph.new size) rfl goodGraph_nil h
  exact ⟨g, h1, h2, by intro a b; rw [h3]; simp [Graph.new, adj]⟩

/-- **C30.** On every nonempty graph, whatever `set.pop` and the dict order do, the call returns; the
path visits exactly the vertices of one connected component, all of whose edges are then gone, and
has one vertex more than there are such edges; the rest of the graph is untouched; and if there is any vertex of odd degree the path ends at one (it is
where the walk was started). -/
theorem C30_any (pk : Picker) (ko : KeyOrder) (g : Graph) (hg : GoodGraph g.d) (hne : g.d ≠ []) :
    ∃ p g' s, popEulerPath pk ko g = .ok (some p, g') ∧ GoodGraph g'.d ∧ g'.size = g.size ∧
      (Odd (adj g.d s).card ∨ ∀ v, Even (adj g.d v).card) ∧ adj g.d s ≠ ∅ ∧
      (∀ v, v ∈ p ↔ Reach (adj g.d) s v) ∧
      (∀ v, adj g'.d v = open Classical in if Reach (adj g.d) s v then ∅ else adj g.d v) ∧
      entries g'.d + 2 * p.length = entries g.d + 2 ∧ entries g'.d < entries g.d := by
  obtain ⟨s, h1, h2, h3⟩ := popEulerPath_start pk ko g hg hne
  obtain ⟨p, d', e1, e2, e3, e4, e6, e5⟩ := euler_weak g.d hg s h1 pk 0
  refine ⟨p.reverse, ⟨g.size, d'⟩, s, ?_, e2, rfl, h2, h1, ?_, e5, by simpa using e6, e3⟩
  · rw [h3, e1]; rfl
  · simpa using e4

/-- **C30.** If every degree is even, the path is a closed walk that uses each edge of the
component of its start exactly once. -/
theorem C30_even (pk : Picker) (ko : KeyOrder) (g : Graph) (hg : GoodGraph g.d) (hne : g.d ≠ [])
    (heven : ∀ v, Even (adj g.d v).card) :
    ∃ p g' s, popEulerPath pk ko g = .ok (some p, g') ∧ adj g.d s ≠ ∅ ∧
      p.head? = some s ∧ p.getLast? = some s ∧ IsWalk (adj g.d) p ∧
      UsesComponent (adj g.d) s p ∧
      ∀ v, adj g'.d v = open Classical in if Reach (adj g.d) s v then ∅ else adj g.d v := by
  obtain ⟨s, h1, h2, h3⟩ := popEulerPath_start pk ko g hg hne
  obtain ⟨p, d', e1, e2⟩ := euler_from g.d hg s s (by
    intro v _
    rw [← Nat.not_even_iff_odd]
    simp [heven v, OneOf]) pk 0
  obtain ⟨p', d'', e1', _, _, _, _, e5⟩ := euler_weak g.d hg s h1 pk 0
  rw [e1] at e1'
  injection e1' with e1'
  injection e1' with hp hd
  subst hp hd
  obtain ⟨u1, u2⟩ := e2.usesComponent
  have u1' : UsesComponent (adj g.d) s p.reverse := by
    unfold UsesComponent; simp only [uses_reverse]; exact u1
  refine ⟨p.reverse, ⟨g.size, d'⟩, s, ?_, h1, ?_, ?_, ?_, u1', e5⟩
  · rw [h3, e1]; rfl
  · rw [List.head?_reverse]; exact e2.oldest
  · rw [List.getLast?_reverse]; exact e2.newest
  · apply isWalk_of_uses
    intro a b
    rw [uses_reverse]
    have := e2.edges a b
    omega

/-- **C30.** If the start's component has exactly two vertices of odd degree, the path is a walk from
the one to the other that uses each edge of the component exactly once. -/
theorem C30_two_odd (pk : Picker) (ko : KeyOrder) (g : Graph) (hg : GoodGraph g.d)
    (hodd : ∃ v, Odd (adj g.d v).card)
    (htwo : ∀ s, Odd (adj g.d s).card → ∃ t, t ≠ s ∧
      ∀ v, Reach (adj g.d) s v → (Odd (adj g.d v).card ↔ v = s ∨ v = t)) :
    ∃ p g' s t, popEulerPath pk ko g = .ok (some p, g') ∧ s ≠ t ∧
      Odd (adj g.d s).card ∧ Odd (adj g.d t).card ∧
      p.head? = some t ∧ p.getLast? = some s ∧ IsWalk (adj g.d) p ∧
      UsesComponent (adj g.d) s p ∧
      ∀ v, adj g'.d v = open Classical in if Reach (adj g.d) s v then ∅ else adj g.d v := by
  obtain ⟨v0, hv0⟩ := hodd
  have hne : g.d ≠ [] := by
    intro h; rw [h] at hv0; simp [adj] at hv0
  obtain ⟨s, h1, h2, h3⟩ := popEulerPath_start pk ko g hg hne
  have hs : Odd (adj g.d s).card := by
    rcases h2 with h | h
    · exact h
    · exact absurd (h v0) (Nat.not_even_iff_odd.mpr hv0)
  obtain ⟨t, hts, ht⟩ := htwo s hs
  obtain ⟨p, d', e1, e2⟩ := euler_from g.d hg s t (by
    intro v hv
    rw [ht v hv]
    unfold OneOf
    constructor
    · rintro (rfl | rfl)
      · exact Or.inl ⟨rfl, Ne.symm hts⟩
      · exact Or.inr ⟨hts, rfl⟩
    · rintro (⟨h, _⟩ | ⟨_, h⟩)
      · exact Or.inl h
      · exact Or.inr h) pk 0
  obtain ⟨p', d'', e1', _, _, _, _, e5⟩ := euler_weak g.d hg s h1 pk 0
  rw [e1] at e1'
  injection e1' with e1'
  injection e1' with hp hd
  subst hp hd
  obtain ⟨u1, u2⟩ := e2.usesComponent
  have u1' : UsesComponent (adj g.d) s p.reverse := by
    unfold UsesComponent; simp only [uses_reverse]; exact u1
  have htr : Reach (adj g.d) s t := by
    apply (e2.mem_iff t).mp
    exact List.mem_of_getLast? e2.oldest
  refine ⟨p.reverse, ⟨g.size, d'⟩, s, t, ?_, Ne.symm hts, hs, (ht t htr).mpr (Or.inr rfl), ?_, ?_, ?_,
    u1', e5⟩
  · rw [h3, e1]; rfl
  · rw [List.head?_reverse]; exact e2.oldest
  · rw [List.getLast?_reverse]; exact e2.newest
  · apply isWalk_of_uses
    intro a b
    rw [uses_reverse]
    have := e2.edges a b
    omega

/-- **C30.** With `allow_multiple_connected_components=False` the call refuses (None, graph
unchanged) exactly when more than two vertices have odd degree. -/
theorem C30_refuse (pk : Picker) (ko : KeyOrder) (g : Graph) (hg : GoodGraph g.d) (hne : g.d ≠ []) :
    (popEulerPath pk ko g false = .ok (none, g) ↔
      2 < (g.d.keys.filter fun x => decide (Odd (adj g.d x).card)).length) ∧
    (¬ 2 < (g.d.keys.filter fun x => decide (Odd (adj g.d x).card)).length →
      popEulerPath pk ko g false = popEulerPath pk ko g true) := by
  have hlen : (oddKeys ko g.d).length =
      (g.d.keys.filter fun x => decide (Odd (adj g.d x).card)).length :=
    ((ko.perm g.d).filter _).length_eq
  rw [← hlen]
  have hsame : ¬ 2 < (oddKeys ko g.d).length →
      popEulerPath pk ko g false = popEulerPath pk ko g true := by
    intro h
    unfold popEulerPath
    simp only [oddKeys_eq]
    split
    · rfl
    · have : ¬ (oddKeys ko g.d).length + 1 > 3 := by omega
      simp [this]
  refine ⟨⟨?_, ?_⟩, hsame⟩
  · intro h
    by_contra hc
    rw [hsame hc] at h
    obtain ⟨p, g', s, h', _⟩ := C30_any pk ko g hg hne
    rw [h'] at h
    injection h with h
    injection h with h _
    cases h
  · intro h
    unfold popEulerPath
    simp only [oddKeys_eq]
    split
    · rename_i ho
      have := (ko.perm g.d).length_eq
      rw [ho] at this
      simp [Dict.keys] at this
      exact absurd (List.length_eq_zero_iff.mp this.symm) hne
    · have : (oddKeys ko g.d).length + 1 > 3 := by omega
      simp [this]

/-- non-vacuity of `C30_even`: a triangle and, apart from it, another -/
example : ∃ g, graphOf .py3 6 [(0, 1), (1, 2), (2, 0), (3, 4), (4, 5), (5, 3)] = .ok g ∧
    GoodGraph g.d ∧ g.d ≠ [] ∧ ∀ v, Even (adj g.d v).card := by
  obtain ⟨g, h1, h2, h3⟩ := C30_build .py3 6 [(0, 1), (1, 2), (2, 0), (3, 4), (4, 5), (5, 3)]
    (by decide)
  refine ⟨g, h1, h2, ?_, ?_⟩
  · intro h
    have := (h3 0 1).mpr (by decide)
    rw [h] at this
    simp [adj] at this
  · intro v
    have hv : adj g.d v = (Finset.range 6).filter fun b =>
        (v, b) ∈ [(0, 1), (1, 2), (2, 0), (3, 4), (4, 5), (5, 3)] ∨
        (b, v) ∈ [(0, 1), (1, 2), (2, 0), (3, 4), (4, 5), (5, 3)] := by
      ext b
      rw [h3, Finset.mem_filter, Finset.mem_range]
      constructor
      · intro h
        refine ⟨?_, h⟩
        simp at h
        omega
      · exact fun h => h.2
    rw [hv]
    by_cases h6 : v < 6
    · interval_cases v <;> decide
    · have : ((Finset.range 6).filter fun b =>
        (v, b) ∈ [(0, 1), (1, 2), (2, 0), (3, 4), (4, 5), (5, 3)] ∨
        (b, v) ∈ [(0, 1), (1, 2), (2, 0), (3, 4), (4, 5), (5, 3)]) = ∅ := by
        apply Finset.filter_false_of_mem
        intro b _
        simp
        omega
      rw [this]; simp

/-- non-vacuity of `C30_two_odd`: a path of three vertices -/
example : ∃ g, graphOf .py3 3 [(0, 1), (1, 2)] = .ok g ∧ GoodGraph g.d ∧
    (∃ v, Odd (adj g.d v).card) ∧
    (∀ s, Odd (adj g.d s).card → ∃ t, t ≠ s ∧
      ∀ v, Reach (adj g.d) s v → (Odd (adj g.d v).card ↔ v = s ∨ v = t)) := by
  obtain ⟨g, h1, h2, h3⟩ := C30_build .py3 3 [(0, 1), (1, 2)] (by decide)
  have ha : ∀ v, adj g.d v = if v = 0 then {1} else if v = 1 then {0, 2} else if v = 2 then {1}
      else ∅ := by
    intro v
    ext b
    rw [h3]
    by_cases v0 : v = 0
    · subst v0; simp
    · by_cases v1 : v = 1
      · subst v1; simp [or_comm]
      · by_cases v2 : v = 2
        · subst v2; simp
        · simp [v0, v1, v2]
  have hodd : ∀ v, Odd (adj g.d v).card ↔ v = 0 ∨ v = 2 := by
    intro v
    rw [ha]
    by_cases v0 : v = 0
    · subst v0; simp
    · by_cases v1 : v = 1
      · subst v1; simp
      · by_cases v2 : v = 2
        · subst v2; simp
        · simp [v0, v1, v2]
  refine ⟨g, h1, h2, ⟨0, (hodd 0).mpr (Or.inl rfl)⟩, ?_⟩
  intro s hs
  rcases (hodd s).mp hs with rfl | rfl
  · exact ⟨2, by decide, fun v _ => hodd v⟩
  · exact ⟨0, by decide, fun v _ => by rw [hodd v, or_comm]⟩

/-! ### more than two odd vertices -/

/-- the star with centre 0 and leaves 1, 2, 3 -/
def star : Adj := [(1, {0}), (0, {1, 2, 3}), (2, {0}), (3, {0})]

theorem star_adj (v : ℕ) : adj star v =
    if v = 1 ∨ v = 2 ∨ v = 3 then {0} else if v = 0 then {1, 2, 3} else ∅ := by
  unfold adj star
  simp only [Dict.get?_cons, Dict.get?_nil]
  by_cases h1 : v = 1
  · subst h1; simp
  · by_cases h0 : v = 0
    · subst h0; simp
    · by_cases h2 : v = 2
      · subst h2; simp
      · by_cases h3 : v = 3
        · subst h3; simp
        · simp [Ne.symm h1, Ne.symm h0, Ne.symm h2, Ne.symm h3, h1, h0, h2, h3]

theorem star_good : GoodGraph star := by
  have hadj := star_adj
  refine ⟨by decide, ?_, ?_, ?_⟩
  · intro v s h
    have := adj_of_get? h
    have hne : s ∈ star.map Prod.snd := by
      unfold star at h ⊢
      simp only [Dict.get?_cons, Dict.get?_nil] at h
      split at h
      · injection h with h; subst h; simp
      · split at h
        · injection h with h; subst h; simp
        · split at h
          · injection h with h; subst h; simp
          · split at h
            · injection h with h; subst h; simp
            · cases h
    simp only [star, List.map_cons, List.map_nil, List.mem_cons, List.not_mem_nil, or_false] at hne
    rcases hne with rfl | rfl | rfl | rfl <;> simp
  · intro u v h
    rw [hadj] at h ⊢
    split at h
    · simp at h; subst h
      rename_i hu
      simp; rcases hu with rfl | rfl | rfl <;> simp
    · split at h
      · rename_i hu0; subst hu0; simp at h
        rcases h with rfl | rfl | rfl <;> simp
      · simp at h
  · intro v h
    rw [hadj] at h
    split at h
    · rename_i hv; simp at h; subst h; simp at hv
    · split at h
      · rename_i hv; subst hv; simp at h
      · simp at h

/-- Finding: with four odd vertices in one component the result is not a walk — whatever `set.pop`
does, no walk can use every edge of the star once, so the returned list has a step along no edge. -/
theorem C30_star_not_a_walk (pk : Picker) (ko : KeyOrder) :
    ∃ p g', popEulerPath pk ko ⟨4, star⟩ = .ok (some p, g') ∧ p.length = 4 ∧
      ¬ IsWalk (adj star) p := by
  obtain ⟨p, g', s, h1, hg', _, _, hs, hmem, hrest, hlen, _⟩ :=
    C30_any pk ko ⟨4, star⟩ star_good (by simp [star])
  have hadj := star_adj
  simp only at hs hmem hrest hlen
  have hreach : ∀ v, (v = 0 ∨ v = 1 ∨ v = 2 ∨ v = 3) → Reach (adj star) s v := by
    have h0 : Reach (adj star) s 0 := by
      rw [hadj] at hs
      split at hs
      · rename_i h
        apply Relation.ReflTransGen.single
        rw [hadj, if_pos h]; simp
      · split at hs
        · rename_i h; subst h; exact Relation.ReflTransGen.refl
        · exact absurd rfl hs
    rintro v (rfl | hv)
    · exact h0
    · apply h0.tail
      rw [hadj]; simp; exact hv
  have hzero : entries g'.d = 0 := by
    have : ∀ v, adj g'.d v = ∅ := by
      intro v
      rw [hrest]
      split
      · rfl
      · rename_i hv
        rw [hadj]
        split
        · rename_i h; exact absurd (hreach v (Or.inr h)) hv
        · split
          · rename_i h; exact absurd (hreach v (Or.inl h)) hv
          · rfl
    rw [eq_nil_of_adj hg' this]; rfl
  have hl : p.length = 4 := by
    rw [hzero] at hlen
    have : entries star = 6 := by decide
    omega
  refine ⟨p, g', h1, hl, ?_⟩
  intro hw
  match p, hl with
  | [a, b, c, d], _ =>
    simp only [IsWalk, List.isChain_cons_cons, hadj] at hw
    obtain ⟨w1, w2, w3, _⟩ := hw
    have m0 := (hmem 0).mpr (hreach 0 (by simp))
    have m1 := (hmem 1).mpr (hreach 1 (by simp))
    have m2 := (hmem 2).mpr (hreach 2 (by simp))
    have m3 := (hmem 3).mpr (hreach 3 (by simp))
    simp only [List.mem_cons, List.not_mem_nil, or_false] at m0 m1 m2 m3
    have nb : ∀ x y : ℕ, (y ∈ if x = 1 ∨ x = 2 ∨ x = 3 then ({0} : Finset ℕ) else
        if x = 0 then {1, 2, 3} else ∅) → (x = 0 ∧ y ≠ 0) ∨ (x ≠ 0 ∧ y = 0) := by
      intro x y h
      split at h
      · rename_i hx; simp at h; right; exact ⟨by omega, h⟩
      · split at h
        · rename_i hx; simp at h; left; exact ⟨hx, by omega⟩
        · simp at h
    have n1 := nb _ _ w1
    have n2 := nb _ _ w2
    have n3 := nb _ _ w3
    omega

end Blmath.Props
