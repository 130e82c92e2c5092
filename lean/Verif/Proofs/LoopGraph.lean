import Verif.Proofs.MeshGraph

/-!
`pop_euler_path` on graphs that may have loops: edges from a vertex to itself, which faces with a repeated corner give.
-/

namespace Blmath.Geometry
open Graph

namespace LG

/-- The state of a `Graph` between calls: unique keys, no empty sets, symmetric. -/
structure SymGraph (d : Adj) : Prop where
  nodup : d.keys.Nodup
  nonempty : ∀ v s, d.get? v = some s → s.Nonempty
  symm : ∀ u v, v ∈ adj d u → u ∈ adj d v

theorem symGraph_nil : SymGraph ([] : Adj) := ⟨List.nodup_nil, by simp, by simp [adj]⟩

theorem prune_self {d : Adj} {v : ℕ} (h : d.keys.Nodup) : (prune d v).get? v ≠ some ∅ := by
  rw [get?_prune _ _ _ h]
  by_cases hc : d.get? v = some ∅ <;> simp [hc]

theorem prune_mono {d : Adj} {v w : ℕ} {t : Finset ℕ} (h : d.keys.Nodup) (ht : (prune d v).get? w = some t) :
    d.get? w = some t := by
  rw [get?_prune _ _ _ h] at ht
  by_cases hc : w = v ∧ d.get? v = some ∅
  · rw [if_pos hc] at ht; cases ht
  · rw [if_neg hc] at ht; exact ht

/-- One push of the main loop removes exactly the edge between `v` and `u`. -/
theorem step_spec {d : Adj} (hg : SymGraph d) {v u : ℕ} {s : Finset ℕ} (hs : d.get? v = some s)
    (hu : u ∈ s) :
    SymGraph (removeEdge (d.set v (s.erase u)) u v) ∧
    ∀ w, adj (removeEdge (d.set v (s.erase u)) u v) w =
      if w = v then (adj d v).erase u else if w = u then (adj d u).erase v else adj d w := by
  have hav : adj d v = s := adj_of_get? hs
  have hvu : v ∈ adj d u := hg.symm v u (by rw [hav]; exact hu)
  obtain ⟨su, hsu⟩ : ∃ su, d.get? u = some su := by
    cases h : d.get? u with
    | none => rw [adj_of_none h] at hvu; simp at hvu
    | some su => exact ⟨su, rfl⟩
  have hau : adj d u = su := adj_of_get? hsu
  rw [hau] at hvu
  set d1 := d.set v (s.erase u) with hd1
  have n1 : d1.keys.Nodup := Dict.keys_set_nodup _ _ _ hg.nodup
  obtain ⟨d2, n2, hfin, hadj2, hoth⟩ : ∃ d2 : Adj, d2.keys.Nodup ∧ removeEdge d1 u v = prune (prune d2 v) u ∧
      (∀ w, adj d2 w = if w = v then (adj d v).erase u else if w = u then (adj d u).erase v else adj d w) ∧
      ∀ w, w ≠ v → w ≠ u → d2.get? w = d.get? w := by
    by_cases hne : u = v
    · subst hne
      have g1 : d1.get? u = some (s.erase u) := Dict.get?_set_same _ _ _
      have e : dropFrom d1 u u = d1 := by unfold dropFrom; rw [g1]; simp
      refine ⟨d1, n1, ?_, ?_, ?_⟩
      · unfold removeEdge; rw [e, e]
      · intro w
        rw [hd1, adj_set, hav]
        by_cases h : w = u <;> simp [h]
      · intro w h _
        rw [hd1, Dict.get?_set_ne d _ h]
    · have g1u : d1.get? u = some su := by rw [hd1, Dict.get?_set_ne d _ hne]; exact hsu
      have e2 : dropFrom d1 u v = d1.set u (su.erase v) := by
        unfold dropFrom; rw [g1u]; simp [hvu]
      have g2v : (d1.set u (su.erase v)).get? v = some (s.erase u) := by
        rw [Dict.get?_set_ne d1 _ (Ne.symm hne), hd1, Dict.get?_set_same]
      have e3 : dropFrom (d1.set u (su.erase v)) v u = d1.set u (su.erase v) := by
        unfold dropFrom; rw [g2v]; simp
      refine ⟨d1.set u (su.erase v), Dict.keys_set_nodup _ _ _ n1, ?_, ?_, ?_⟩
      · unfold removeEdge; rw [e2, e3]
      · intro w
        rw [adj_set, hd1, adj_set, hav, hau]
        by_cases h1 : w = u
        · subst h1; simp [hne]
        · by_cases h2 : w = v
          · simp [h2, Ne.symm hne]
          · simp [h1, h2]
      · intro w h h'
        rw [Dict.get?_set_ne _ _ h', hd1, Dict.get?_set_ne _ _ h]
  have n3 := prune_nodup d2 v n2
  have hadj : ∀ w, adj (removeEdge d1 u v) w =
      if w = v then (adj d v).erase u else if w = u then (adj d u).erase v else adj d w := by
    intro w
    rw [hfin, adj_prune _ _ _ n3, adj_prune _ _ _ n2, hadj2]
  refine ⟨⟨?_, ?_, ?_⟩, hadj⟩
  · rw [hfin]; exact prune_nodup _ _ n3
  · intro w t ht
    by_contra hc
    have ht0 : t = ∅ := Finset.not_nonempty_iff_eq_empty.mp hc
    subst ht0
    rw [hfin] at ht
    have h1 := prune_mono n3 ht
    have h2 := prune_mono n2 h1
    have hwu : w ≠ u := by rintro rfl; exact prune_self n3 ht
    have hwv : w ≠ v := by rintro rfl; exact prune_self n2 h1
    rw [hoth w hwv hwu] at h2
    exact absurd rfl (hg.nonempty w ∅ h2).ne_empty
  · intro a b hb
    rw [hadj] at hb ⊢
    by_cases ha : a = v
    · rw [if_pos ha] at hb
      have hb' := Finset.mem_of_mem_erase hb
      have hbu := Finset.ne_of_mem_erase hb
      have hba := hg.symm _ _ hb'
      by_cases hbv : b = v
      · rw [if_pos hbv, Finset.mem_erase]
        refine ⟨?_, ?_⟩
        · rw [ha, ← hbv]; exact hbu
        · rw [ha]; rw [hbv] at hba; exact hba
      · rw [if_neg hbv, if_neg hbu, ha]; exact hba
    · rw [if_neg ha] at hb
      by_cases ha' : a = u
      · rw [if_pos ha'] at hb
        have hba := hg.symm _ _ (Finset.mem_of_mem_erase hb)
        have hbv : b ≠ v := Finset.ne_of_mem_erase hb
        rw [if_neg hbv]
        by_cases hbu : b = u
        · rw [if_pos hbu, Finset.mem_erase, ha']
          exact ⟨by rw [← ha']; exact ha, by rw [hbu] at hba; exact hba⟩
        · rw [if_neg hbu, ha']; exact hba
      · rw [if_neg ha'] at hb
        have hba := hg.symm _ _ hb
        by_cases hb1 : b = v
        · subst hb1; rw [if_pos rfl, Finset.mem_erase]; exact ⟨ha', hba⟩
        · rw [if_neg hb1]
          by_cases hb2 : b = u
          · subst hb2; rw [if_pos rfl, Finset.mem_erase]; exact ⟨ha, hba⟩
          · rw [if_neg hb2]; exact hba

/-- `add_edge` adds exactly the edge between its two vertices, which may be the same. -/
theorem addEdge_spec (ver : PyVer) (g : Graph) (hg : SymGraph g.d) (u v : ℕ) (hu : u < g.size)
    (hv : v < g.size) :
    ∃ d', addEdge ver g (some u) (some v) = .ok ⟨g.size, d'⟩ ∧ SymGraph d' ∧
      ∀ a b, b ∈ adj d' a ↔ b ∈ adj g.d a ∨ (a = u ∧ b = v) ∨ (a = v ∧ b = u) := by
  set d1 := touch g.d u with hd1
  set d2 := touch d1 v with hd2
  have a2 : ∀ w, adj d2 w = adj g.d w := fun w => by rw [hd2, adj_touch, hd1, adj_touch]
  have n2 : d2.keys.Nodup := touch_nodup _ _ (touch_nodup _ _ hg.nodup)
  have hsu : d2.get? u = some (adj g.d u) := by
    obtain ⟨s, hs⟩ : ∃ s, d2.get? u = some s := by
      by_cases hne : u = v
      · rw [hne]; exact touch_get?_self d1 v
      · rw [hd2, touch_get?_ne d1 hne]; exact touch_get?_self g.d u
    rw [hs, ← a2, adj_of_get? hs]
  have hsv : d2.get? v = some (adj g.d v) := by
    obtain ⟨s, hs⟩ := touch_get?_self d1 v
    rw [hs, ← a2, adj_of_get? hs]
  have e1 := addTo_some d2 u v _ hsu
  set d3 := d2.set u (insert v (adj g.d u)) with hd3
  have hsv3 : d3.get? v = some (if v = u then insert v (adj g.d u) else adj g.d v) := by
    rw [hd3, Dict.get?_set]
    by_cases h : v = u
    · simp [h]
    · rw [if_neg h, if_neg h]; exact hsv
  have e2 := addTo_some d3 v u _ hsv3
  set d4 := d3.set v (insert u (if v = u then insert v (adj g.d u) else adj g.d v)) with hd4
  have n4 : d4.keys.Nodup := Dict.keys_set_nodup _ _ _ (Dict.keys_set_nodup _ _ _ n2)
  have a4 : ∀ w, adj d4 w = if w = v then insert u (if v = u then insert v (adj g.d u) else adj g.d v) else if w = u then
      insert v (adj g.d u) else adj g.d w := by
    intro w
    rw [hd4, adj_set, hd3, adj_set, a2]
  have hmem : ∀ a b, b ∈ adj d4 a ↔ b ∈ adj g.d a ∨ (a = u ∧ b = v) ∨ (a = v ∧ b = u) := by
    intro a b
    rw [a4]
    by_cases h1 : a = v
    · subst h1
      by_cases h3 : a = u
      · subst h3; simp; tauto
      · simp [h3, or_comm]
    · rw [if_neg h1]
      by_cases h2 : a = u
      · subst h2; simp [h1, or_comm]
      · simp [h1, h2]
  refine ⟨d4, ?_, ⟨n4, ?_, ?_⟩, hmem⟩
  · unfold addEdge checkVertex
    simp only [hu, hv, if_true, ok_bind, pure_eq_ok]
    rw [← hd1, ← hd2, e1, e2]
  · intro w s hs
    have hw := adj_of_get? hs
    rw [a4] at hw
    by_cases h1 : w = v
    · rw [if_pos h1] at hw; rw [← hw]; exact Finset.insert_nonempty _ _
    · rw [if_neg h1] at hw
      by_cases h2 : w = u
      · rw [if_pos h2] at hw; rw [← hw]; exact Finset.insert_nonempty _ _
      · rw [hd4, Dict.get?_set_ne _ _ h1, hd3, Dict.get?_set_ne _ _ h2, hd2, touch_get?_ne _ h1, hd1,
          touch_get?_ne _ h2] at hs
        exact hg.nonempty w s hs
  · intro a b hb
    rw [hmem] at hb ⊢
    rcases hb with h | ⟨h1, h2⟩ | ⟨h1, h2⟩
    · exact Or.inl (hg.symm _ _ h)
    · exact Or.inr (Or.inr ⟨h2, h1⟩)
    · exact Or.inr (Or.inl ⟨h2, h1⟩)


/-- invariant that needs no assumption about degrees -/
structure WeakInv (G : ℕ → Finset ℕ) (s : ℕ) (stack path : List ℕ) (d : Adj) : Prop where
  good : SymGraph d
  start : s ∈ stack ++ path
  inside : ∀ v ∈ stack ++ path, Reach G s v
  isolated : ∀ v ∈ path, adj d v = ∅
  sub : ∀ a b, b ∈ adj d a → b ∈ G a
  seen : ∀ a b, b ∈ G a → b ∈ adj d a ∨ (a ∈ stack ++ path ∧ b ∈ stack ++ path)

theorem eulerLoop_weak (G : ℕ → Finset ℕ) (s : ℕ) (pk : Picker) :
    ∀ (n k : ℕ) (stack path : List ℕ) (d : Adj), 2 * entries d + stack.length ≤ n →
      WeakInv G s stack path d →
      ∃ p d', eulerLoop pk k stack path d = .ok (p, d') ∧ WeakInv G s [] p d' ∧
        stack.length + path.length ≤ p.length ∧ entries d' ≤ entries d ∧
        ∀ x rest, stack = x :: rest → adj d x ≠ ∅ →
          entries d' < entries d ∧ stack.length + path.length < p.length := by
  intro n
  induction n with
  | zero =>
    intro k stack path d hn inv
    have : stack = [] := List.length_eq_zero_iff.mp (by omega)
    subst this
    rw [eulerLoop]
    exact ⟨path, d, rfl, inv, by simp, le_rfl, by simp⟩
  | succ n ih =>
    intro k stack path d hn inv
    cases stack with
    | nil => rw [eulerLoop]; exact ⟨path, d, rfl, inv, by simp, le_rfl, by simp⟩
    | cons x rest =>
      rw [eulerLoop]
      split
      · rename_i s' hs'
        have hne : s'.Nonempty := inv.good.nonempty x s' hs'
        rw [dif_pos hne]
        have hu : pk.pick k s' ∈ s' := pk.mem k s' hne
        set u := pk.pick k s' with hudef
        have hax : adj d x = s' := adj_of_get? hs'
        have hux : u ∈ adj d x := by rw [hax]; exact hu
        obtain ⟨hgood, hadj⟩ := step_spec inv.good hs' hu
        have hmeas : entries (removeEdge (d.set x (s'.erase u)) u x) < entries d :=
          lt_of_le_of_lt (entries_removeEdge_le _ _ _)
            (entries_set_lt d x s' _ hs' (Finset.card_erase_lt_of_mem hu))
        simp only
        have hsub : ∀ a b, b ∈ adj (removeEdge (d.set x (s'.erase u)) u x) a → b ∈ adj d a := by
          intro a b hb
          rw [hadj] at hb
          split at hb
          · rename_i h; rw [h]; exact Finset.mem_of_mem_erase hb
          · split at hb
            · rename_i h; rw [h]; exact Finset.mem_of_mem_erase hb
            · exact hb
        obtain ⟨p, d', h1, h2, h3, h5', _⟩ := ih (k + 1) (u :: x :: rest) path
          (removeEdge (d.set x (s'.erase u)) u x) (by simp only [List.length_cons] at hn ⊢; omega) (by
          refine ⟨hgood, ?_, ?_, ?_, fun a b hb => inv.sub a b (hsub a b hb), ?_⟩
          · exact List.mem_cons_of_mem _ inv.start
          · intro v hv
            rw [List.cons_append, List.mem_cons] at hv
            rcases hv with rfl | hv
            · exact (inv.inside x (by simp)).tail (inv.sub _ _ hux)
            · exact inv.inside v hv
          · intro v hv
            apply Finset.eq_empty_of_forall_notMem
            intro b hb
            have := hsub _ _ hb
            rw [inv.isolated v hv] at this
            simp at this
          · intro a b hb
            rcases inv.seen a b hb with h | ⟨h, h'⟩
            · by_cases hc : b ∈ adj (removeEdge (d.set x (s'.erase u)) u x) a
              · exact Or.inl hc
              · right
                rw [hadj] at hc
                split at hc
                · rename_i hax'
                  subst hax'
                  rw [Finset.mem_erase] at hc
                  have : b = u := by
                    by_contra hbu; exact hc ⟨hbu, h⟩
                  subst this
                  simp
                · split at hc
                  · rename_i hau
                    rw [Finset.mem_erase] at hc
                    rw [hau] at h
                    have : b = x := by
                      by_contra hbu; exact hc ⟨hbu, h⟩
                    subst this
                    rw [hau]; simp
                  · exact absurd h hc
            · exact Or.inr ⟨List.mem_cons_of_mem _ h, List.mem_cons_of_mem _ h'⟩)
        simp only [List.length_cons] at h3 ⊢
        exact ⟨p, d', h1, h2, by omega, by omega, fun _ _ _ _ => ⟨by omega, by omega⟩⟩
      · rename_i hnone
        have hax : adj d x = ∅ := adj_of_none hnone
        have hmem : ∀ v, v ∈ rest ++ x :: path ↔ v ∈ (x :: rest) ++ path := by
          intro v
          simp only [List.mem_append, List.mem_cons]
          constructor
          · rintro (h | h | h) <;> simp [h]
          · rintro ((h | h) | h) <;> simp [h]
        obtain ⟨p, d', h1, h2, h3, h5', _⟩ := ih k rest (x :: path) d
          (by simp only [List.length_cons] at hn; omega) (by
          refine ⟨inv.good, (hmem s).mpr inv.start, fun v hv => inv.inside v ((hmem v).mp hv), ?_,
            inv.sub, ?_⟩
          · intro v hv
            rcases List.mem_cons.mp hv with rfl | hv
            · exact hax
            · exact inv.isolated v hv
          · intro a b hb
            rcases inv.seen a b hb with h | ⟨h, h'⟩
            · exact Or.inl h
            · exact Or.inr ⟨(hmem a).mpr h, (hmem b).mpr h'⟩)
        refine ⟨p, d', h1, h2, by simp only [List.length_cons] at h3 ⊢; omega, h5', ?_⟩
        intro y r hyr hy
        injection hyr with h4 _
        rw [← h4] at hy
        exact absurd hax hy

/-- On any symmetric graph the loop returns; the path visits exactly the component of the start,
whose edges are all gone, and the rest of the graph is as before. -/
theorem euler_weak (d : Adj) (hg : SymGraph d) (s : ℕ) (hs : adj d s ≠ ∅) (pk : Picker) (k : ℕ) :
    ∃ p d', eulerLoop pk k [s] [] d = .ok (p, d') ∧ SymGraph d' ∧ entries d' < entries d ∧
      (∀ v, v ∈ p ↔ Reach (adj d) s v) ∧ 2 ≤ p.length ∧
      ∀ v, adj d' v = open Classical in if Reach (adj d) s v then ∅ else adj d v := by
  obtain ⟨p, d', h1, h2, h5, _, h4⟩ := eulerLoop_weak (adj d) s pk _ k [s] [] d le_rfl
    ⟨hg, by simp, by
      intro v hv
      simp at hv
      subst hv
      exact Relation.ReflTransGen.refl, by simp, fun _ _ h => h, fun _ _ h => Or.inl h⟩
  have hmem : ∀ v, v ∈ p ↔ Reach (adj d) s v := by
    intro v
    constructor
    · intro hv; exact h2.inside v (by simpa using hv)
    · intro hv
      induction hv with
      | refl => simpa using h2.start
      | @tail b c _ hc ih =>
        rcases h2.seen b c hc with h | h
        · rw [h2.isolated b ih] at h; simp at h
        · simpa using h.2
  refine ⟨p, d', h1, h2.good, (h4 s [] rfl hs).1, hmem, (by have := (h4 s [] rfl hs).2; simp at this; omega), ?_⟩
  intro v
  by_cases hv : Reach (adj d) s v
  · simp only [hv, if_true]
    exact h2.isolated v ((hmem v).mpr hv)
  · simp only [hv, if_false]
    ext b
    constructor
    · exact h2.sub v b
    · intro hb
      rcases h2.seen v b hb with h | h
      · exact h
      · exact absurd ((hmem v).mp (by simpa using h.1)) hv

theorem eq_nil_of_adj {d : Adj} (hg : SymGraph d) (h : ∀ v, adj d v = ∅) : d = [] := by
  cases d with
  | nil => rfl
  | cons a d =>
    obtain ⟨k, t⟩ := a
    have hk : Dict.get? ((k, t) :: d) k = some t := by rw [Dict.get?_cons, if_pos rfl]
    have := h k
    rw [adj_of_get? hk] at this
    exact absurd this (hg.nonempty k t hk).ne_empty


/-- the start chosen by `pop_euler_path` -/
theorem popEulerPath_start (pk : Picker) (ko : KeyOrder) (g : Graph) (hg : SymGraph g.d)
    (hne : g.d ≠ []) :
    ∃ s, adj g.d s ≠ ∅ ∧ (Odd (adj g.d s).card ∨ ∀ v, Even (adj g.d v).card) ∧
      popEulerPath pk ko g = (do
        let (path, d) ← eulerLoop pk 0 [s] [] g.d
        pure (some path.reverse, { g with d := d })) := by
  have hmem : ∀ v, v ∈ ko.order g.d ↔ adj g.d v ≠ ∅ := by
    intro v
    rw [(ko.perm g.d).mem_iff, Dict.mem_keys_iff, Dict.contains, Option.isSome_iff_ne_none,
      Ne, get?_none_iff hg.nonempty]
  cases ho : ko.order g.d with
  | nil =>
    exfalso
    have := (ko.perm g.d).length_eq
    rw [ho] at this
    simp [Dict.keys] at this
    exact hne (List.length_eq_zero_iff.mp this.symm)
  | cons first tl =>
    have hodd := oddKeys_eq ko g.d
    have hfirst : adj g.d first ≠ ∅ := (hmem first).mp (by rw [ho]; simp)
    cases hk : oddKeys ko g.d with
    | nil =>
      refine ⟨first, hfirst, Or.inr ?_, ?_⟩
      · intro v
        by_contra hc
        rw [Nat.not_even_iff_odd] at hc
        have hv : v ∈ ko.order g.d := (hmem v).mpr (by
          intro h; rw [h] at hc; simp at hc)
        have : v ∈ oddKeys ko g.d := by
          unfold oddKeys; rw [List.mem_filter]; exact ⟨hv, by simpa using hc⟩
        rw [hk] at this
        simp at this
      · unfold popEulerPath
        simp only [hodd, hk, List.nil_append]
        rw [ho]
        rfl
    | cons o os =>
      have hmo : o ∈ oddKeys ko g.d := by rw [hk]; simp
      unfold oddKeys at hmo
      rw [List.mem_filter] at hmo
      refine ⟨o, (hmem o).mp hmo.1, Or.inl (by simpa using hmo.2), ?_⟩
      unfold popEulerPath
      simp only [hodd, hk, List.cons_append]
      rw [ho]
      rfl


/-- degrees, a loop counted twice -/
def deg (A : ℕ → Finset ℕ) (v : ℕ) : ℕ := (A v).card + ind A v v

/-- What a run has achieved: started at `s`, the first appended vertex is `t0` and the last `s`;
every edge is either still there or used exactly once by the path; all visited vertices are used up;
and they lie in `C`. -/
structure EulerDone (G : ℕ → Finset ℕ) (C : ℕ → Prop) (s t0 : ℕ) (path : List ℕ) (d : Adj) :
    Prop where
  good : SymGraph d
  newest : path.head? = some s
  oldest : path.getLast? = some t0
  edges : ∀ a b, ind G a b = ind (adj d) a b + uses a b path
  degrees : ∀ v, deg G v = deg (adj d) v + ends v path
  isolated : ∀ v ∈ path, adj d v = ∅
  inside : ∀ v ∈ path, C v

/-- The loop invariant while the stack is not empty. -/
structure EulerInv (G : ℕ → Finset ℕ) (C : ℕ → Prop) (s t0 x : ℕ) (rest path : List ℕ) (d : Adj)
    (t : ℕ) : Prop where
  good : SymGraph d
  bottom : (x :: rest).getLast? = some s
  target : (path = [] ∧ t = t0) ∨ path.getLast? = some t0
  edges : ∀ a b, ind G a b = ind (adj d) a b + uses a b (x :: rest) + uses a b (t :: path)
  degrees : ∀ v, deg G v = deg (adj d) v + ends v (x :: rest) + ends v (t :: path)
  parity : ∀ v, C v → (Odd (deg (adj d) v) ↔ OneOf (v = x) (v = t))
  isolated : ∀ v ∈ path, adj d v = ∅
  inside : ∀ v ∈ x :: rest, C v
  insidePath : ∀ v ∈ path, C v

theorem ind_erase {d : Adj} (hg : SymGraph d) {v u : ℕ} (hu : u ∈ adj d v) {d' : Adj}
    (h : ∀ w, adj d' w =
      if w = v then (adj d v).erase u else if w = u then (adj d u).erase v else adj d w) (a b : ℕ) :
    ind (adj d) a b = ind (adj d') a b + isEdge a b u v := by
  have hvu : v ∈ adj d u := hg.symm _ _ hu
  unfold ind isEdge
  rw [h a]
  by_cases hav : a = v
  · subst hav
    rw [if_pos rfl]; simp only [Finset.mem_erase]
    by_cases hbu : b = u
    · subst hbu; simp [hu]
    · by_cases hua : u = a
      · subst hua; simp [hbu, Ne.symm hbu]
      · simp [hua, hbu, Ne.symm hbu]
  · rw [if_neg hav]
    by_cases hau : a = u
    · subst hau
      rw [if_pos rfl]; simp only [Finset.mem_erase]
      by_cases hbv : b = v
      · subst hbv; simp [hvu]
      · simp [hbv, Ne.symm hbv, Ne.symm hav]
    · rw [if_neg hau]
      have h1 : ¬ (u = a ∧ v = b ∨ u = b ∧ v = a) := by
        rintro (⟨h1, _⟩ | ⟨_, h1⟩)
        · exact hau h1.symm
        · exact hav h1.symm
      rw [if_neg h1]; simp

theorem deg_erase {d : Adj} (hg : SymGraph d) {v u : ℕ} (hu : u ∈ adj d v) {d' : Adj}
    (h : ∀ w, adj d' w =
      if w = v then (adj d v).erase u else if w = u then (adj d u).erase v else adj d w) (w : ℕ) :
    deg (adj d) w = deg (adj d') w + ((if u = w then 1 else 0) + (if v = w then 1 else 0)) := by
  have hvu : v ∈ adj d u := hg.symm _ _ hu
  have hi := ind_erase hg hu h w w
  have hc1 := Finset.card_erase_add_one hu
  have hc2 := Finset.card_erase_add_one hvu
  unfold deg
  rw [hi, h w]
  unfold isEdge
  by_cases hw : w = v
  · subst hw
    by_cases huw : u = w
    · subst huw; simp; omega
    · simp [huw]; omega
  · rw [if_neg hw]
    by_cases hw' : w = u
    · subst hw'
      simp [Ne.symm hw]; omega
    · rw [if_neg hw']
      simp [Ne.symm hw, Ne.symm hw']

theorem parity_step {n : ℕ} {p q r : Prop} [Decidable p] [Decidable q]
    (h : Odd (n + ((if p then 1 else 0) + (if q then 1 else 0))) ↔ OneOf q r) : Odd n ↔ OneOf p r := by
  unfold OneOf at *
  rw [Nat.odd_iff] at *
  by_cases hp : p <;> by_cases hq : q <;> by_cases hr : r <;> simp [hp, hq, hr] at h ⊢ <;> omega

theorem eulerLoop_correct (G : ℕ → Finset ℕ) (C : ℕ → Prop)
    (hC : ∀ a b, C a → b ∈ G a → C b) (s t0 : ℕ) (pk : Picker) :
    ∀ (n : ℕ) (k : ℕ) (x : ℕ) (rest path : List ℕ) (d : Adj) (t : ℕ),
      2 * entries d + (x :: rest).length ≤ n → EulerInv G C s t0 x rest path d t →
      ∃ p d', eulerLoop pk k (x :: rest) path d = .ok (p, d') ∧ EulerDone G C s t0 p d' := by
  intro n
  induction n with
  | zero => intro k x rest path d t hn; simp at hn
  | succ n ih =>
    intro k x rest path d t hn inv
    rw [eulerLoop]
    split
    · -- push
      rename_i s' hs'
      have hne : s'.Nonempty := inv.good.nonempty x s' hs'
      rw [dif_pos hne]
      have hu : pk.pick k s' ∈ s' := pk.mem k s' hne
      set u := pk.pick k s' with hudef
      have hax : adj d x = s' := adj_of_get? hs'
      have hux : u ∈ adj d x := by rw [hax]; exact hu
      obtain ⟨hgood, hadj⟩ := step_spec inv.good hs' hu
      have hmeas : entries (removeEdge (d.set x (s'.erase u)) u x) < entries d :=
        lt_of_le_of_lt (entries_removeEdge_le _ _ _)
          (entries_set_lt d x s' _ hs' (Finset.card_erase_lt_of_mem hu))
      simp only
      refine ih (k + 1) u (x :: rest) path _ t ?_ ?_
      · simp only [List.length_cons] at hn ⊢; omega
      have hCx : C x := inv.inside x (by simp)
      have hCu : C u := by
        apply hC x u hCx
        have h1 := inv.edges x u
        have h2 : ind (adj d) x u = 1 := by simp [ind, hux]
        by_contra hc
        have h3 : ind G x u = 0 := by simp [ind, hc]
        omega
      refine ⟨hgood, ?_, inv.target, ?_, ?_, ?_, ?_, ?_, inv.insidePath⟩
      · have := inv.bottom
        simpa using this
      · intro a b
        have h1 := inv.edges a b
        have h2 := ind_erase inv.good hux hadj a b
        simp only [uses]
        omega
      · intro v
        have h1 := inv.degrees v
        have h2 := deg_erase inv.good hux hadj v
        simp only [ends]
        omega
      · intro v hv
        have h1 := inv.parity v hv
        have h2 := deg_erase inv.good hux hadj v
        rw [h2] at h1
        rw [eq_comm (a := v) (b := x)] at h1
        rw [eq_comm (a := v) (b := u)]
        exact parity_step h1
      · intro v hv
        have h1 := inv.isolated v hv
        rw [hadj]
        split
        · rename_i h; subst h; rw [h1]; simp
        · split
          · rename_i h; rw [h] at h1; rw [h1]; simp
          · exact h1
      · intro v hv
        rcases List.mem_cons.mp hv with rfl | hv
        · exact hCu
        · exact inv.inside v hv
    · -- pop
      rename_i hnone
      have hax : adj d x = ∅ := adj_of_none hnone
      have hCx : C x := inv.inside x (by simp)
      have hxt : x = t := by
        have h1 := inv.parity x hCx
        have h0 : deg (adj d) x = 0 := by simp [deg, ind, hax]
        rw [h0] at h1
        by_contra hc
        have : OneOf (x = x) (x = t) := Or.inl ⟨rfl, hc⟩
        have := h1.mpr this
        simp at this
      subst hxt
      have hold : (x :: path).getLast? = some t0 := by
        rcases inv.target with ⟨h1, h2⟩ | h
        · subst h1; simp [h2]
        · cases path with
          | nil => simp at h
          | cons y p => simpa using h
      have hiso : ∀ v ∈ x :: path, adj d v = ∅ := by
        intro v hv
        rcases List.mem_cons.mp hv with rfl | hv
        · exact hax
        · exact inv.isolated v hv
      have hins : ∀ v ∈ x :: path, C v := by
        intro v hv
        rcases List.mem_cons.mp hv with rfl | hv
        · exact hCx
        · exact inv.insidePath v hv
      cases rest with
      | nil =>
        rw [eulerLoop]
        refine ⟨x :: path, d, rfl, inv.good, ?_, hold, ?_, ?_, hiso, hins⟩
        · simpa using inv.bottom
        · intro a b
          have := inv.edges a b
          simpa [uses] using this
        · intro v
          have := inv.degrees v
          simpa [ends] using this
      | cons y rest =>
        refine ih k y rest (x :: path) d y ?_ ?_
        · simp only [List.length_cons] at hn ⊢; omega
        refine ⟨inv.good, ?_, Or.inr hold, ?_, ?_, ?_, hiso, ?_, hins⟩
        · simpa using inv.bottom
        · intro a b
          have h1 := inv.edges a b
          have h2 := isEdge_comm a b x y
          simp only [uses] at h1 ⊢
          omega
        · intro v
          have h1 := inv.degrees v
          simp only [ends] at h1 ⊢
          omega
        · intro v hv
          rw [inv.parity v hv]
          unfold OneOf
          simp
        · intro v hv
          exact inv.inside v (List.mem_cons_of_mem _ hv)

/-- The loop on a graph whose odd vertices in the component of `s` are exactly `s` and `t` (none if
`s = t`). -/
theorem euler_from (d : Adj) (hg : SymGraph d) (s t : ℕ)
    (hp : ∀ v, Reach (adj d) s v → (Odd (deg (adj d) v) ↔ OneOf (v = s) (v = t))) (pk : Picker)
    (k : ℕ) :
    ∃ p d', eulerLoop pk k [s] [] d = .ok (p, d') ∧
      EulerDone (adj d) (Reach (adj d) s) s t p d' := by
  refine eulerLoop_correct (adj d) (Reach (adj d) s) (fun a b ha hb => ha.tail hb) s t pk _ k s [] []
    d t le_rfl ?_
  refine ⟨hg, by simp, Or.inl ⟨rfl, rfl⟩, ?_, ?_, hp, by simp, ?_, by simp⟩
  · intro a b; simp [uses]
  · intro v; simp [ends]
  · intro v hv
    simp at hv
    subst hv
    exact Relation.ReflTransGen.refl

/-- the path visits exactly the connected component of the start -/
theorem EulerDone.mem_iff {d d' : Adj} {s t : ℕ} {p : List ℕ}
    (h : EulerDone (adj d) (Reach (adj d) s) s t p d') (v : ℕ) : v ∈ p ↔ Reach (adj d) s v := by
  constructor
  · exact h.inside v
  · intro hv
    induction hv with
    | refl =>
      have := h.newest
      exact List.mem_of_head? this
    | @tail b c _ hc ih =>
      have h1 := h.edges b c
      have h2 : ind (adj d) b c = 1 := by simp [ind, hc]
      have h3 : ind (adj d') b c = 0 := by simp [ind, h.isolated b ih]
      exact (uses_mem (a := b) (b := c) (l := p) (by omega)).2


variable {α : Type} [Num α] [EqNum α]

/-- Taking any graph apart: the run returns, every section is nonempty, its points are points of
graph vertices, and every graph vertex's point is on some section. -/
theorem popComponents_any (pk : ℕ → Picker) (ko : ℕ → KeyOrder) (verts : List (V3 α)) :
    ∀ (n : ℕ) (k : ℕ) (g : Graph), entries g.d ≤ n → SymGraph g.d →
      (∀ v, adj g.d v ≠ ∅ → v < verts.length) →
      ∃ cs, popComponents pk ko verts k g = .ok cs ∧
        (∀ c ∈ cs, c.v ≠ [] ∧ ∀ q ∈ c.v, ∃ i, adj g.d i ≠ ∅ ∧ verts[i]? = some q) ∧
        (∀ i q, adj g.d i ≠ ∅ → verts[i]? = some q → ∃ c ∈ cs, q ∈ c.v) := by
  intro n
  induction n with
  | zero =>
    intro k g hn hg _
    have : g.d = [] := by
      apply eq_nil_of_adj hg
      intro v
      by_contra hc
      obtain ⟨u, hu⟩ := Finset.nonempty_iff_ne_empty.mpr hc
      cases hv : g.d.get? v with
      | none => exact hc (adj_of_none hv)
      | some s =>
        rw [adj_of_get? hv] at hu
        have := entries_set_lt g.d v s (s.erase u) hv (Finset.card_erase_lt_of_mem hu)
        omega
    rw [popComponents, if_pos this]
    exact ⟨[], rfl, by simp, by simp [this, adj]⟩
  | succ n ih =>
    intro k g hn hg hlt
    by_cases hd : g.d = []
    · rw [popComponents, if_pos hd]
      exact ⟨[], rfl, by simp, by simp [hd, adj]⟩
    obtain ⟨s, h1, _, h3⟩ := popEulerPath_start (pk k) (ko k) g hg hd
    obtain ⟨p, d', e1, e3, e4, e7, e6, e8⟩ := euler_weak g.d hg s h1 (pk k) 0
    have e1' : popEulerPath (pk k) (ko k) g = .ok (some p.reverse, ⟨g.size, d'⟩) := by
      rw [h3, e1]; rfl
    have hplen : 2 ≤ p.length := by omega
    have e7' : ∀ v, v ∈ p.reverse ↔ Reach (adj g.d) s v := by
      intro v; rw [List.mem_reverse]; exact e7 v
    have hplen' : 2 ≤ p.reverse.length := by simpa using hplen
    generalize p.reverse = p' at *
    have hkeys : ∀ v ∈ p', adj g.d v ≠ ∅ := by
      intro v hv
      have hr := (e7' v).mp hv
      rcases Relation.ReflTransGen.cases_tail hr with h | ⟨b, _, hb⟩
      · rw [h]; exact h1
      · intro h
        have := hg.symm _ _ hb
        rw [h] at this; simp at this
    have hlen : ∀ i ∈ p', i < verts.length := fun i hi => hlt i (hkeys i hi)
    have hlt' : ∀ v, adj d' v ≠ ∅ → v < verts.length := by
      intro v hv; rw [e8] at hv; split at hv
      · exact absurd rfl hv
      · exact hlt v hv
    obtain ⟨cs, f1, f2, f3⟩ := ih (k + 1) ⟨g.size, d'⟩ (by simp only; omega) e3 hlt'
    simp only at f2 f3
    obtain ⟨x, hx⟩ : ∃ x, p'.head? = some x := Option.isSome_iff_exists.mp (by
      cases p' with
      | nil => simp at hplen'
      | cons a l => rfl)
    obtain ⟨y, hy⟩ : ∃ y, p'.getLast? = some y := Option.isSome_iff_exists.mp (by
      cases p' with
      | nil => simp at hplen'
      | cons a l => simp)
    obtain ⟨cv, hcv, hc1, hc2⟩ := component_ok verts p' hlen x y hx hy
    have hforall : ∀ (l : List ℕ) (c : List (V3 α)),
        List.Forall₂ (fun (i : ℕ) (q : V3 α) => verts[i]? = some q) l c →
        (∀ q ∈ c, ∃ i ∈ l, verts[i]? = some q) ∧ (∀ i ∈ l, ∀ q, verts[i]? = some q → q ∈ c) := by
      intro l c h
      induction h with
      | nil => simp
      | @cons i q l c h _ ih' =>
        refine ⟨?_, ?_⟩
        · intro q' hq'
          rcases List.mem_cons.mp hq' with rfl | hq'
          · exact ⟨i, by simp, h⟩
          · obtain ⟨i', hi', h'⟩ := ih'.1 q' hq'
            exact ⟨i', by simp [hi'], h'⟩
        · intro i' hi' q' h'
          rcases List.mem_cons.mp hi' with rfl | hi'
          · rw [h] at h'; injection h' with h'; simp [h']
          · exact List.mem_cons_of_mem _ (ih'.2 i' hi' q' h')
    obtain ⟨c, hc, hcne, hcin, hcout⟩ : ∃ c, component verts p' = .ok c ∧ c.v ≠ [] ∧
        (∀ q ∈ c.v, ∃ i ∈ p', verts[i]? = some q) ∧
        (∀ i ∈ p', ∀ q, verts[i]? = some q → q ∈ c.v) := by
      by_cases hxy : verts[x]? = verts[y]?
      · refine ⟨⟨cv.tail, true⟩, hc1 hxy, ?_⟩
        cases hcv with
        | nil => simp at hplen'
        | @cons i q l c hi hl =>
          simp only [List.head?_cons, Option.some.injEq] at hx
          subst hx
          have hl2 := hforall l c hl
          have hlne : l ≠ [] := by rintro rfl; simp at hplen'
          have hyl : y ∈ l := by
            cases l with
            | nil => exact absurd rfl hlne
            | cons z l => exact List.mem_of_getLast? (by simpa using hy)
          refine ⟨?_, ?_, ?_⟩
          · cases hl with
            | nil => exact absurd rfl hlne
            | cons _ _ => simp
          · intro q' hq'
            obtain ⟨i', h, h'⟩ := hl2.1 q' hq'
            exact ⟨i', List.mem_cons_of_mem _ h, h'⟩
          · intro i' hi' q' hq'
            rcases List.mem_cons.mp hi' with rfl | hi'
            · exact hl2.2 y hyl q' (by rw [← hxy]; exact hq')
            · exact hl2.2 i' hi' q' hq'
      · refine ⟨⟨cv, false⟩, hc2 hxy, ?_, (hforall _ _ hcv).1, (hforall _ _ hcv).2⟩
        cases hcv with
        | nil => simp at hplen'
        | cons _ _ => simp
    refine ⟨c :: cs, ?_, ?_, ?_⟩
    · rw [popComponents, if_neg hd]; simp only [e1', hc, e4, dif_pos, f1]
    · intro c' hc'
      rcases List.mem_cons.mp hc' with rfl | hc'
      · refine ⟨hcne, fun q hq => ?_⟩
        obtain ⟨i, hi, hi'⟩ := hcin q hq
        exact ⟨i, hkeys i hi, hi'⟩
      · refine ⟨(f2 c' hc').1, fun q hq => ?_⟩
        obtain ⟨i, hi, hi'⟩ := (f2 c' hc').2 q hq
        refine ⟨i, ?_, hi'⟩
        rw [e8] at hi
        split at hi
        · exact absurd rfl hi
        · exact hi
    · intro i q hi hq
      by_cases hr : Reach (adj g.d) s i
      · exact ⟨c, by simp, hcout i ((e7' i).mpr hr) q hq⟩
      · obtain ⟨c', hc', h⟩ := f3 i q (by rw [e8, if_neg hr]; exact hi) hq
        exact ⟨c', by simp [hc'], h⟩


/-- What one section of a graph with loops is: `lab` lists its graph vertices in order, going round and
using each edge of a whole component, loops included, once. -/
structure LoopSection {β : Type} (G : ℕ → Finset ℕ) (verts : List β) (lab : List ℕ) (vs : List β) : Prop where
  points : List.Forall₂ (fun (i : ℕ) (q : β) => verts[i]? = some q) lab vs
  round : ∃ y, lab.getLast? = some y ∧ IsWalk G (y :: lab) ∧ ∀ a ∈ lab, ∀ b, uses a b (y :: lab) = ind G a b
  whole : ∀ i ∈ lab, ∀ j, j ∈ lab ↔ Reach G i j

theorem reach_symm {d : Adj} (hg : SymGraph d) {a b : ℕ} (h : Reach (adj d) a b) : Reach (adj d) b a := by
  induction h with
  | refl => exact Relation.ReflTransGen.refl
  | @tail x y _ hxy ih => exact Relation.ReflTransGen.head (hg.symm _ _ hxy) ih

theorem ends_reverse (v : ℕ) (l : List ℕ) (a b : ℕ) (ha : l.head? = some a) (hb : l.getLast? = some b) :
    ends v l.reverse = ends v l := by
  have h1 := ends_count v l a b ha hb
  have h2 := ends_count v l.reverse b a (by rw [List.head?_reverse]; exact hb) (by rw [List.getLast?_reverse]; exact ha)
  rw [List.count_reverse] at h2
  omega

/-- Taking apart a graph with loops in which every vertex has an even number of other neighbours. -/
theorem popComponents_loops (pk : ℕ → Picker) (ko : ℕ → KeyOrder) (verts : List (V3 α)) :
    ∀ (n : ℕ) (k : ℕ) (g : Graph), entries g.d ≤ n → SymGraph g.d →
      (∀ v, adj g.d v ≠ ∅ → v < verts.length) → (∀ v, Even (deg (adj g.d) v)) →
      ∃ cs labs, popComponents pk ko verts k g = .ok cs ∧
        List.Forall₂ (fun (lab : List ℕ) (c : Section α) => LoopSection (adj g.d) verts lab c.v) labs cs ∧
        (∀ c ∈ cs, c.closed = true) ∧ ∀ v, 2 * labs.flatten.count v = deg (adj g.d) v := by
  intro n
  induction n with
  | zero =>
    intro k g hn hg _ _
    have : g.d = [] := by
      apply eq_nil_of_adj hg
      intro v
      by_contra hc
      obtain ⟨u, hu⟩ := Finset.nonempty_iff_ne_empty.mpr hc
      cases hv : g.d.get? v with
      | none => exact hc (adj_of_none hv)
      | some s =>
        rw [adj_of_get? hv] at hu
        have := entries_set_lt g.d v s (s.erase u) hv (Finset.card_erase_lt_of_mem hu)
        omega
    rw [popComponents, if_pos this]
    exact ⟨[], [], rfl, .nil, by simp, by simp [this, adj, deg, ind]⟩
  | succ n ih =>
    intro k g hn hg hlt heven
    by_cases hd : g.d = []
    · rw [popComponents, if_pos hd]
      exact ⟨[], [], rfl, .nil, by simp, by simp [hd, adj, deg, ind]⟩
    obtain ⟨s, h1, _, h3⟩ := popEulerPath_start (pk k) (ko k) g hg hd
    obtain ⟨p, d', e1, e3, e4, e7, e6, e8⟩ := euler_weak g.d hg s h1 (pk k) 0
    obtain ⟨p', d'', e1', done⟩ := euler_from g.d hg s s (by
      intro v _
      rw [← Nat.not_even_iff_odd]
      simp [heven v, OneOf]) (pk k) 0
    rw [e1] at e1'
    injection e1' with e1'
    injection e1' with q1 q2
    subst q1 q2
    have e1' : popEulerPath (pk k) (ko k) g = .ok (some p.reverse, ⟨g.size, d'⟩) := by
      rw [h3, e1]; rfl
    -- the reversed path
    have r1 : p.reverse.head? = some s := by rw [List.head?_reverse]; exact done.oldest
    have r2 : p.reverse.getLast? = some s := by rw [List.getLast?_reverse]; exact done.newest
    have r3 : ∀ v, v ∈ p.reverse ↔ Reach (adj g.d) s v := by
      intro v; rw [List.mem_reverse]; exact e7 v
    have r4 : ∀ a b, ind (adj g.d) a b = ind (adj d') a b + uses a b p.reverse := by
      intro a b; rw [uses_reverse]; exact done.edges a b
    have r5 : ∀ v, deg (adj g.d) v = deg (adj d') v + ends v p.reverse := by
      intro v; rw [ends_reverse v p s s done.newest done.oldest]; exact done.degrees v
    have r6 : 2 ≤ p.reverse.length := by simpa using e6
    generalize p.reverse = p at *
    obtain ⟨tl, rfl⟩ : ∃ tl, p = s :: tl := by
      cases p with
      | nil => simp at r1
      | cons a l => simp only [List.head?_cons, Option.some.injEq] at r1; exact ⟨l, by rw [r1]⟩
    have htl : tl ≠ [] := by rintro rfl; simp at r6
    have hl : tl.getLast? = some s := by
      cases tl with
      | nil => exact absurd rfl htl
      | cons y tl => simpa using r2
    have hmem : ∀ v, v ∈ tl ↔ Reach (adj g.d) s v := by
      intro v
      rw [← r3, List.mem_cons]
      constructor
      · exact Or.inr
      · rintro (rfl | h)
        · exact List.mem_of_getLast? hl
        · exact h
    have hcount : ∀ v, ends v (s :: tl) = 2 * tl.count v := by
      intro v
      have := ends_count v (s :: tl) s s rfl r2
      rw [List.count_cons] at this
      by_cases h : s = v
      · subst h
        simp only [if_true, beq_self_eq_true] at this; omega
      · have hb : (s == v) = false := by simpa using h
        simp only [h, if_false, hb, Bool.false_eq_true] at this; omega
    have hkeys : ∀ v, Reach (adj g.d) s v → adj g.d v ≠ ∅ := by
      intro v hr
      rcases Relation.ReflTransGen.cases_tail hr with h | ⟨b, _, hb⟩
      · rw [h]; exact h1
      · intro h
        have := hg.symm _ _ hb
        rw [h] at this; simp at this
    have hlen : ∀ i ∈ s :: tl, i < verts.length := fun i hi => hlt i (hkeys i ((r3 i).mp hi))
    have hlt' : ∀ v, adj d' v ≠ ∅ → v < verts.length := by
      intro v hv; rw [e8] at hv; split at hv
      · exact absurd rfl hv
      · exact hlt v hv
    have hdeg' : ∀ v, deg (adj d') v = open Classical in if Reach (adj g.d) s v then 0 else deg (adj g.d) v := by
      intro v
      unfold deg ind
      rw [e8]
      by_cases h : Reach (adj g.d) s v <;> simp [h]
    obtain ⟨cs, labs, f1, f2, f3, f4⟩ := ih (k + 1) ⟨g.size, d'⟩ (by simp only; omega) e3 hlt' (by
      intro v
      simp only
      rw [hdeg']
      split
      · simp
      · exact heven v)
    simp only at f2 f4
    obtain ⟨cv, hcv, hc1, _⟩ := component_ok verts (s :: tl) hlen s s r1 r2
    have hreach' : ∀ i, ¬ Reach (adj g.d) s i → ∀ j, Reach (adj d') i j ↔ Reach (adj g.d) i j := by
      intro i hi j
      constructor
      · intro h
        induction h with
        | refl => exact Relation.ReflTransGen.refl
        | @tail b c _ hbc ih' =>
          apply ih'.tail
          rw [e8] at hbc
          split at hbc
          · simp at hbc
          · exact hbc
      · intro h
        induction h with
        | refl => exact Relation.ReflTransGen.refl
        | @tail b c hb hbc ih' =>
          apply ih'.tail
          rw [e8, if_neg]
          · exact hbc
          · intro hsb
            exact hi (Relation.ReflTransGen.trans hsb (reach_symm hg hb))
    have hmono : ∀ a b, b ∈ adj d' a → b ∈ adj g.d a := by
      intro a b hb
      rw [e8] at hb
      split at hb
      · simp at hb
      · exact hb
    have lift : ∀ lab vs, (∀ i ∈ lab, ¬ Reach (adj g.d) s i) → LoopSection (adj d') verts lab vs →
        LoopSection (adj g.d) verts lab vs := by
      intro lab vs hin h
      refine ⟨h.points, ?_, ?_⟩
      · obtain ⟨y, y1, y2, y3⟩ := h.round
        refine ⟨y, y1, List.IsChain.imp (fun a b hb => hmono a b hb) y2, ?_⟩
        intro a ha b
        rw [y3 a ha b]
        unfold ind
        rw [e8, if_neg (hin a ha)]
      · intro i hi j
        rw [h.whole i hi j]
        exact hreach' i (hin i hi) j
    have hout : ∀ lab ∈ labs, ∀ i ∈ lab, ¬ Reach (adj g.d) s i := by
      intro lab hl i hi hr
      have hp : 0 < labs.flatten.count i := List.count_pos_iff.mpr (List.mem_flatten.mpr ⟨lab, hl, hi⟩)
      have := f4 i
      rw [hdeg', if_pos hr] at this
      omega
    have f2' : List.Forall₂ (fun (lab : List ℕ) (c : Section α) => LoopSection (adj g.d) verts lab c.v) labs cs := by
      clear f3 f4 f1 ih
      induction f2 with
      | nil => exact List.Forall₂.nil
      | cons h _ ih' =>
        exact List.Forall₂.cons (lift _ _ (hout _ (by simp)) h)
          (ih' fun lab hl => hout lab (List.mem_cons_of_mem _ hl))
    have huse : ∀ a ∈ tl, ∀ b, uses a b (s :: tl) = ind (adj g.d) a b := by
      intro a ha b
      have h := r4 a b
      have h' : ind (adj d') a b = 0 := by
        unfold ind; rw [e8, if_pos ((hmem a).mp ha)]; simp
      omega
    refine ⟨⟨cv.tail, true⟩ :: cs, tl :: labs, ?_, .cons ⟨?_, ⟨s, hl, ?_, huse⟩, ?_⟩ f2', ?_, ?_⟩
    · rw [popComponents, if_neg hd]; simp only [e1', hc1 rfl, e4, dif_pos, f1]
    · cases hcv with
      | cons _ h => exact h
    · exact isWalk_of_uses _ _ fun a b => by have := r4 a b; omega
    · intro i hi j
      rw [hmem j]
      have hr := (hmem i).mp hi
      constructor
      · intro h; exact Relation.ReflTransGen.trans (reach_symm hg hr) h
      · intro h; exact Relation.ReflTransGen.trans hr h
    · intro c hc
      rcases List.mem_cons.mp hc with rfl | hc
      · rfl
      · exact f3 c hc
    · intro v
      rw [List.flatten_cons, List.count_append, Nat.mul_add, f4, r5, hcount]
      omega

end LG
end Blmath.Geometry
