import Verif.Proofs.EulerPath
import Verif.Model.MeshSlice
import Verif.Proofs.Plane
import Verif.Base.Rd

/-!
Taking graphs of degree at most two apart into their components.
-/

namespace Blmath.Geometry
open Graph

/-- What one call of `pop_euler_path` does to a graph with all degrees at most two: it returns a
simple path or a simple cycle through all of one component. -/
theorem pop_degree_two (pk : Picker) (ko : KeyOrder) (g : Graph) (hg : GoodGraph g.d) (hne : g.d ≠ [])
    (h2 : ∀ v, (adj g.d v).card ≤ 2) :
    ∃ p g' s, popEulerPath pk ko g = .ok (some p, g') ∧ g'.size = g.size ∧ GoodGraph g'.d ∧
      entries g'.d < entries g.d ∧ adj g.d s ≠ ∅ ∧
      IsWalk (adj g.d) p ∧ (∀ v, v ∈ p ↔ Reach (adj g.d) s v) ∧
      (∀ v, adj g'.d v = open Classical in if Reach (adj g.d) s v then ∅ else adj g.d v) ∧
      ((∃ tl, p = s :: tl ∧ tl.getLast? = some s ∧ tl.Nodup ∧ 3 ≤ tl.length) ∨
       (p.Nodup ∧ 2 ≤ p.length ∧ ∃ v ∈ p, Odd (adj g.d v).card)) := by
  obtain ⟨s, h1, hstart, h3⟩ := popEulerPath_start pk ko g hg hne
  obtain ⟨t, ht, hcl⟩ : ∃ t, (∀ v, Reach (adj g.d) s v →
      (Odd (adj g.d v).card ↔ OneOf (v = s) (v = t))) ∧ (t = s ∨ Odd (adj g.d s).card) := by
    rcases hstart with h | h
    · have : (adj g.d s).card = 1 := by
        have := h2 s
        rw [Nat.odd_iff] at h
        omega
      obtain ⟨t, ht⟩ := odd_partner g.d hg h2 s this
      exact ⟨t, ht, Or.inr h⟩
    · refine ⟨s, ?_, Or.inl rfl⟩
      intro v _
      rw [← Nat.not_even_iff_odd]
      simp [h v, OneOf]
  obtain ⟨p, d', e1, e2⟩ := euler_from g.d hg s t ht pk 0
  obtain ⟨p', d'', e1', e3, e4, _, _, e5⟩ := euler_weak g.d hg s h1 pk 0
  rw [e1] at e1'
  injection e1' with e1'
  injection e1' with hp hd
  subst hp hd
  have hmem : ∀ v, v ∈ p.reverse ↔ Reach (adj g.d) s v := by
    intro v; rw [List.mem_reverse]; exact e2.mem_iff v
  have hle : ∀ a b, uses a b p.reverse ≤ ind (adj g.d) a b := by
    intro a b; rw [uses_reverse]; have := e2.edges a b; omega
  have hhead : p.reverse.head? = some t := by rw [List.head?_reverse]; exact e2.oldest
  have hlast : p.reverse.getLast? = some s := by rw [List.getLast?_reverse]; exact e2.newest
  have hcount : ∀ v ∈ p.reverse, (adj g.d v).card + (if s = v then 1 else 0) + (if t = v then 1 else 0) =
      2 * p.reverse.count v := by
    intro v hv
    rw [List.mem_reverse] at hv
    have := ends_count v p s t e2.newest e2.oldest
    have hd := e2.degrees v
    rw [e2.isolated v hv, Finset.card_empty, zero_add] at hd
    rw [List.count_reverse, hd]
    omega
  refine ⟨p.reverse, ⟨g.size, d'⟩, s, ?_, rfl, e3, e4, h1, isWalk_of_uses _ _ hle, hmem, e5, ?_⟩
  · rw [h3, e1]; rfl
  by_cases hts : t = s
  · left
    subst hts
    generalize p.reverse = q at *
    cases q with
    | nil => simp at hhead
    | cons x tl =>
      simp only [List.head?_cons, Option.some.injEq] at hhead
      subst hhead
      have hc : ∀ v ∈ x :: tl, (adj g.d v).card = 2 * tl.count v := by
        intro v hv
        have := hcount v hv
        rw [List.count_cons] at this
        by_cases hxv : x = v
        · subst hxv
          simp only [if_true, beq_self_eq_true] at this
          omega
        · have hb : (x == v) = false := by simpa using hxv
          simp only [hxv, hb, if_false, Bool.false_eq_true] at this
          omega
      have hx := hc x (by simp)
      have hpos : 0 < (adj g.d x).card := Finset.card_pos.mpr (Finset.nonempty_iff_ne_empty.mpr h1)
      have htl : tl ≠ [] := by
        rintro rfl
        rw [List.count_nil] at hx
        omega
      have hlast' : tl.getLast? = some x := by
        cases tl with
        | nil => exact absurd rfl htl
        | cons y tl => simpa using hlast
      refine ⟨tl, rfl, hlast', ?_, ?_⟩
      · rw [List.nodup_iff_count_le_one]
        intro v
        by_cases hv : v ∈ tl
        · have := hc v (List.mem_cons_of_mem _ hv)
          have := h2 v
          omega
        · rw [List.count_eq_zero_of_not_mem hv]; omega
      · match tl, htl, hlast' with
        | [y], _, hl =>
          simp at hl
          subst hl
          have := hle y y
          have hi : ind (adj g.d) y y = 0 := by simp [ind, hg.loopless y]
          simp [uses, isEdge, hi] at this
        | [y, z], _, hl =>
          simp at hl
          subst hl
          have := hle z y
          have hi : ind (adj g.d) z y ≤ 1 := by unfold ind; split <;> omega
          simp [uses, isEdge] at this
          omega
        | _ :: _ :: _ :: _, _, _ => simp
  · right
    refine ⟨?_, ?_, s, (hmem s).mpr Relation.ReflTransGen.refl, ?_⟩
    · rw [List.nodup_iff_count_le_one]
      intro v
      by_cases hv : v ∈ p.reverse
      · have h4 := hcount v hv
        have h5 := h2 v
        by_cases hsv : s = v
        · have htv : ¬ t = v := fun h => hts (h.trans hsv.symm)
          simp only [hsv, htv, if_true, if_false] at h4
          omega
        · simp only [hsv, if_false] at h4
          split at h4 <;> omega
      · rw [List.count_eq_zero_of_not_mem hv]; omega
    · match hq : p.reverse, hhead, hlast with
      | [], hh, _ => simp at hh
      | [x], hh, hl =>
        simp at hh hl
        exact absurd (hh.symm.trans hl) hts
      | _ :: _ :: _, _, _ => simp
    · rcases hcl with h | h
      · exact absurd h hts
      · exact h

theorem reach_symm {d : Adj} (hg : GoodGraph d) {a b : ℕ} (h : Reach (adj d) a b) :
    Reach (adj d) b a := by
  induction h with
  | refl => exact Relation.ReflTransGen.refl
  | @tail x y _ hxy ih => exact Relation.ReflTransGen.head (hg.symm _ _ hxy) ih

/-- What one returned section is: `lab` lists its graph vertices in order. -/
structure SectionOf {β : Type} (G : ℕ → Finset ℕ) (verts : List β) (lab : List ℕ)
    (vs : List β) (closed : Bool) : Prop where
  points : List.Forall₂ (fun (i : ℕ) (q : β) => verts[i]? = some q) lab vs
  nonempty : lab ≠ []
  walk : IsWalk G lab
  closing : closed = true → 3 ≤ lab.length ∧
    ∃ x y, lab.head? = some x ∧ lab.getLast? = some y ∧ x ∈ G y
  whole : ∀ i ∈ lab, ∀ j, j ∈ lab ↔ Reach G i j
  opening : closed = false → ∃ i ∈ lab, (G i).card = 1

theorem takeRows_ok {β : Type} (xs : List β) (is : List ℕ) (h : ∀ i ∈ is, i < xs.length) :
    ∃ ys, takeRows xs is = .ok ys ∧
      List.Forall₂ (fun (i : ℕ) (q : β) => xs[i]? = some q) is ys := by
  induction is with
  | nil => exact ⟨[], rfl, List.Forall₂.nil⟩
  | cons i is ih =>
    obtain ⟨ys, h1, h2⟩ := ih fun j hj => h j (by simp [hj])
    have hlt : i < xs.length := h i (by simp)
    have hi : xs[i]? = some xs[i] := List.getElem?_eq_getElem (h i (by simp))
    refine ⟨xs[i] :: ys, ?_, List.Forall₂.cons hi h2⟩
    unfold takeRows at h1 ⊢
    simp [List.mapM_cons, pyIndex_of_getElem? hi, h1]

/-- arithmetic in which `==` is equality (not so with NaN) -/
class EqNum (α : Type) [Num α] : Prop where
  eq_iff : ∀ x y : α, Num.eq x y = true ↔ x = y

instance : EqNum ℝ := ⟨Num.eq_real⟩

instance {rnd : ℝ → ℝ} : EqNum (Rd rnd) := ⟨fun x y => by rw [Rd.eq_iff, Rd.ext_iff]⟩

variable {α : Type} [Num α] [EqNum α]

theorem V3.allEq_iff (a b : V3 α) : V3.allEq a b = true ↔ a = b := by
  unfold V3.allEq
  simp only [Bool.and_eq_true, EqNum.eq_iff]
  constructor
  · rintro ⟨⟨h1, h2⟩, h3⟩; exact V3.ext h1 h2 h3
  · rintro rfl; exact ⟨⟨rfl, rfl⟩, rfl⟩

theorem pyIndex_zero {β : Type} (x : β) (xs : List β) : pyIndex (x :: xs) 0 = .ok x := rfl

theorem pyIndex_last {β : Type} (xs : List β) (x : β) (h : xs.getLast? = some x) :
    pyIndex xs (-1) = .ok x := by
  have hne : xs ≠ [] := by rintro rfl; simp at h
  have hpos : 0 < xs.length := List.length_pos_iff.mpr hne
  unfold pyIndex
  have h1 : ¬ ((-1 : ℤ) + xs.length < 0) := by omega
  have h2 : ((-1 : ℤ) + xs.length).toNat = xs.length - 1 := by omega
  simp only [show ((-1 : ℤ) < 0) by omega, if_true, h1, if_false, h2]
  rw [List.getLast?_eq_getElem?] at h
  rw [h]

/-- one path of points -/
theorem component_ok (verts : List (V3 α)) (path : List ℕ) (hlt : ∀ i ∈ path, i < verts.length)
    (x y : ℕ) (hx : path.head? = some x) (hy : path.getLast? = some y) :
    ∃ cv, List.Forall₂ (fun (i : ℕ) (q : V3 α) => verts[i]? = some q) path cv ∧
      (verts[x]? = verts[y]? → component verts path = .ok ⟨cv.tail, true⟩) ∧
      (verts[x]? ≠ verts[y]? → component verts path = .ok ⟨cv, false⟩) := by
  obtain ⟨cv, h1, h2⟩ := takeRows_ok verts path hlt
  refine ⟨cv, h2, ?_⟩
  have hfirst : ∃ a, pyIndex cv 0 = .ok a ∧ verts[x]? = some a := by
    cases h2 with
    | nil => simp at hx
    | cons h h' =>
      simp only [List.head?_cons, Option.some.injEq] at hx
      subst hx
      exact ⟨_, pyIndex_zero _ _, h⟩
  have hlast : ∃ b, pyIndex cv (-1) = .ok b ∧ verts[y]? = some b := by
    have key : ∀ (p : List ℕ) (c : List (V3 α)), 
        List.Forall₂ (fun (i : ℕ) (q : V3 α) => verts[i]? = some q) p c → p.getLast? = some y →
        ∃ b, c.getLast? = some b ∧ verts[y]? = some b := by
      intro p c hf
      induction hf with
      | nil => intro h; simp at h
      | @cons i q p c hi hf ih =>
        intro h
        cases hf with
        | nil =>
          simp at h
          subst h
          exact ⟨q, rfl, hi⟩
        | cons hj hf' =>
          obtain ⟨b, hb, hb'⟩ := ih (by simpa using h)
          exact ⟨b, by simpa using hb, hb'⟩
    obtain ⟨b, hb, hb'⟩ := key path cv h2 hy
    exact ⟨b, pyIndex_last cv b hb, hb'⟩
  obtain ⟨a, ha, ha'⟩ := hfirst
  obtain ⟨b, hb, hb'⟩ := hlast
  unfold component
  rw [h1]
  simp only [ok_bind, ha, hb, ha', hb']
  constructor
  · intro h
    injection h with h
    rw [if_pos ((V3.allEq_iff a b).mpr h)]; rfl
  · intro h
    rw [if_neg (fun hc => h (by rw [(V3.allEq_iff a b).mp hc]))]; rfl

/-- Taking a graph with all degrees at most two apart: the sections are its connected components,
each a simple cycle (closed) or a simple path (open), and together they list every vertex exactly
once. -/
theorem popComponents_degree_two (pk : ℕ → Picker) (ko : ℕ → KeyOrder) (verts : List (V3 α)) :
    ∀ (n : ℕ) (k : ℕ) (g : Graph), entries g.d ≤ n → GoodGraph g.d →
      (∀ v, (adj g.d v).card ≤ 2) → (∀ v, adj g.d v ≠ ∅ → v < verts.length) →
      (verts.Nodup ∨ ∀ v, Even (adj g.d v).card) →
      ∃ cs labs, popComponents pk ko verts k g = .ok cs ∧
        List.Forall₂ (fun (lab : List ℕ) (c : Section α) =>
          SectionOf (adj g.d) verts lab c.v c.closed) labs cs ∧
        labs.flatten.Nodup ∧ (∀ i, i ∈ labs.flatten ↔ adj g.d i ≠ ∅) ∧
        ((∀ v, Even (adj g.d v).card) → ∀ c ∈ cs, c.closed = true) := by
  intro n
  induction n with
  | zero =>
    intro k g hn hg _ _ _
    have : g.d = [] := by
      apply eq_nil_of_adj hg
      intro v
      by_contra hc
      obtain ⟨u, hu⟩ := Finset.nonempty_iff_ne_empty.mpr hc
      cases hv : g.d.get? v with
      | none => exact hc (adj_of_none hv)
      | some s =>
        rw [adj_of_get? hv] at hu
        have := step_entries hg hv hu
        omega
    rw [popComponents, if_pos this]
    refine ⟨[], [], rfl, List.Forall₂.nil, by simp, ?_, by simp⟩
    intro i; simp [this, adj]
  | succ n ih =>
    intro k g hn hg h2 hlt hinj
    by_cases hd : g.d = []
    · rw [popComponents, if_pos hd]
      refine ⟨[], [], rfl, List.Forall₂.nil, by simp, ?_, by simp⟩
      intro i; simp [hd, adj]
    obtain ⟨p, g', s, e1, e2, e3, e4, e5, e6, e7, e8, e9⟩ :=
      pop_degree_two (pk k) (ko k) g hg hd h2
    have hkeys : ∀ v ∈ p, adj g.d v ≠ ∅ := by
      intro v hv
      have hr := (e7 v).mp hv
      rcases Relation.ReflTransGen.cases_tail hr with h | ⟨b, _, hb⟩
      · rw [h]; exact e5
      · intro h
        have := hg.symm _ _ hb
        rw [h] at this; simp at this
    have hlen : ∀ i ∈ p, i < verts.length := fun i hi => hlt i (hkeys i hi)
    -- the rest of the graph
    have h2' : ∀ v, (adj g'.d v).card ≤ 2 := by
      intro v; rw [e8]; split
      · simp
      · exact h2 v
    have hlt' : ∀ v, adj g'.d v ≠ ∅ → v < verts.length := by
      intro v hv; rw [e8] at hv; split at hv
      · exact absurd rfl hv
      · exact hlt v hv
    have heven' : (∀ v, Even (adj g.d v).card) → ∀ v, Even (adj g'.d v).card := by
      intro h v; rw [e8]; split
      · simp
      · exact h v
    obtain ⟨cs, labs, f1, f2, f3, f4, f5⟩ := ih (k + 1) g' (by omega) e3 h2' hlt'
      (hinj.imp id heven')
    have hreach' : ∀ i, ¬ Reach (adj g.d) s i → ∀ j, Reach (adj g'.d) i j ↔ Reach (adj g.d) i j := by
      intro i hi j
      constructor
      · intro h
        induction h with
        | refl => exact Relation.ReflTransGen.refl
        | @tail b c _ hbc ih' =>
          apply ih'.tail
          rw [e8] at hbc
          split at hbc
          · simp at hbc
          · exact hbc
      · intro h
        induction h with
        | refl => exact Relation.ReflTransGen.refl
        | @tail b c hb hbc ih' =>
          apply ih'.tail
          rw [e8, if_neg]
          · exact hbc
          · intro hsb
            exact hi (Relation.ReflTransGen.trans hsb (reach_symm hg hb))
    have hout : ∀ i, adj g'.d i ≠ ∅ → ¬ Reach (adj g.d) s i := by
      intro i hi hr
      rw [e8, if_pos hr] at hi
      exact hi rfl
    have hmono : ∀ a b, b ∈ adj g'.d a → b ∈ adj g.d a := by
      intro a b hb
      rw [e8] at hb
      split at hb
      · simp at hb
      · exact hb
    have lift : ∀ lab vs cl, (∀ i ∈ lab, adj g'.d i ≠ ∅) → SectionOf (adj g'.d) verts lab vs cl →
        SectionOf (adj g.d) verts lab vs cl := by
      intro lab vs cl hin h
      refine ⟨h.points, h.nonempty, ?_, ?_, ?_, ?_⟩
      · exact List.IsChain.imp (fun a b hb => hmono a b hb) h.walk
      · intro hc
        obtain ⟨h3, x, y, hx, hy, hxy⟩ := h.closing hc
        exact ⟨h3, x, y, hx, hy, hmono _ _ hxy⟩
      · intro i hi j
        rw [h.whole i hi j]
        exact hreach' i (hout i (hin i hi)) j
      · intro hc
        obtain ⟨i, hi, h1⟩ := h.opening hc
        rw [e8, if_neg (hout i (hin i hi))] at h1
        exact ⟨i, hi, h1⟩
    have f2' : List.Forall₂ (fun (lab : List ℕ) (c : Section α) =>
          SectionOf (adj g.d) verts lab c.v c.closed) labs cs := by
      have hin : ∀ lab ∈ labs, ∀ i ∈ lab, adj g'.d i ≠ ∅ := fun lab hl i hi =>
        (f4 i).mp (List.mem_flatten.mpr ⟨lab, hl, hi⟩)
      clear f3 f4 f5 f1 ih
      induction f2 with
      | nil => exact List.Forall₂.nil
      | cons h _ ih' =>
        exact List.Forall₂.cons (lift _ _ _ (hin _ (by simp)) h)
          (ih' fun lab hl => hin lab (List.mem_cons_of_mem _ hl))
    have hwhole : ∀ i ∈ p, ∀ j, j ∈ p ↔ Reach (adj g.d) i j := by
      intro i hi j
      rw [e7]
      have hr := (e7 i).mp hi
      constructor
      · intro h; exact Relation.ReflTransGen.trans (reach_symm hg hr) h
      · intro h; exact Relation.ReflTransGen.trans hr h
    -- putting the first section in front
    have fin : ∀ (lab : List ℕ) (c : Section α), component verts p = .ok c →
        (∀ i, i ∈ lab ↔ i ∈ p) → lab.Nodup → SectionOf (adj g.d) verts lab c.v c.closed →
        ((∀ v, Even (adj g.d v).card) → c.closed = true) →
        ∃ cs labs, popComponents pk ko verts k g = .ok cs ∧
          List.Forall₂ (fun (lab : List ℕ) (c : Section α) =>
            SectionOf (adj g.d) verts lab c.v c.closed) labs cs ∧
          labs.flatten.Nodup ∧ (∀ i, i ∈ labs.flatten ↔ adj g.d i ≠ ∅) ∧
          ((∀ v, Even (adj g.d v).card) → ∀ c ∈ cs, c.closed = true) := by
      intro lab c hc hmem hnd hsec hclosed
      refine ⟨c :: cs, lab :: labs, ?_, List.Forall₂.cons hsec f2', ?_, ?_, ?_⟩
      · rw [popComponents, if_neg hd]; simp only [e1, hc, e4, dif_pos, f1]
      · rw [List.flatten_cons, List.nodup_append]
        refine ⟨hnd, f3, ?_⟩
        intro a ha b hb hab
        subst hab
        exact hout a ((f4 a).mp hb) ((e7 a).mp ((hmem a).mp ha))
      · intro i
        rw [List.flatten_cons, List.mem_append, f4, hmem, e8]
        constructor
        · rintro (h | h)
          · exact hkeys i h
          · split at h
            · exact absurd rfl h
            · exact h
        · intro h
          by_cases hr : Reach (adj g.d) s i
          · exact Or.inl ((e7 i).mpr hr)
          · right; rw [if_neg hr]; exact h
      · intro he c' hc'
        rcases List.mem_cons.mp hc' with rfl | hc'
        · exact hclosed he
        · exact f5 (heven' he) c' hc'
    rcases e9 with ⟨tl, hp, hl, hnd, h3⟩ | ⟨hnd, hp2, v0, hv0p, hv0⟩
    · -- a cycle
      have htl : tl ≠ [] := by rintro rfl; simp at h3
      have hlast : p.getLast? = some s := by
        rw [hp]
        cases tl with
        | nil => exact absurd rfl htl
        | cons y tl => simpa using hl
      obtain ⟨cv, hcv, hc1, _⟩ := component_ok verts p hlen s s (by rw [hp]; rfl) hlast
      have hmem : ∀ i, i ∈ tl ↔ i ∈ p := by
        intro i
        rw [hp, List.mem_cons]
        constructor
        · exact Or.inr
        · rintro (rfl | h)
          · exact List.mem_of_getLast? hl
          · exact h
      have hw : IsWalk (adj g.d) tl ∧ ∃ x, tl.head? = some x ∧ x ∈ adj g.d s := by
        rw [hp] at e6
        cases tl with
        | nil => exact absurd rfl htl
        | cons y tl =>
          unfold IsWalk at e6 ⊢
          rw [List.isChain_cons_cons] at e6
          exact ⟨e6.2, y, rfl, e6.1⟩
      refine fin tl ⟨cv.tail, true⟩ (hc1 rfl) hmem hnd ⟨?_, htl, hw.1, ?_, ?_, by simp⟩ (fun _ => rfl)
      · rw [hp] at hcv
        cases hcv with
        | cons _ h => exact h
      · intro _
        obtain ⟨x, hx, hxs⟩ := hw.2
        exact ⟨h3, x, s, hx, hl, hxs⟩
      · intro i hi j
        rw [hmem j]
        exact hwhole i ((hmem i).mp hi) j
    · -- a path
      have hv : verts.Nodup := by
        rcases hinj with h | h
        · exact h
        · exact absurd (h v0) (Nat.not_even_iff_odd.mpr hv0)
      obtain ⟨x, y, hx, hy, hxy⟩ : ∃ x y, p.head? = some x ∧ p.getLast? = some y ∧ x ≠ y := by
        match p, hp2, hnd with
        | a :: b :: r, _, hnd =>
          obtain ⟨y, hy⟩ : ∃ y, (a :: b :: r).getLast? = some y :=
            Option.isSome_iff_exists.mp (by simp)
          refine ⟨a, y, rfl, hy, ?_⟩
          rintro rfl
          have hm : a ∈ b :: r := List.mem_of_getLast? (by simpa using hy)
          exact (List.nodup_cons.mp hnd).1 hm
      obtain ⟨cv, hcv, _, hc2⟩ := component_ok verts p hlen x y hx hy
      have hxp : x < verts.length := hlen x (List.mem_of_head? hx)
      have hyp : y < verts.length := hlen y (List.mem_of_getLast? hy)
      have hne : verts[x]? ≠ verts[y]? := by
        rw [List.getElem?_eq_getElem hxp, List.getElem?_eq_getElem hyp]
        intro h
        injection h with h
        exact hxy ((List.Nodup.getElem_inj_iff hv).mp h)
      refine fin p ⟨cv, false⟩ (hc2 hne) (fun _ => Iff.rfl) hnd
        ⟨hcv, ?_, e6, by simp, hwhole, fun _ => ⟨v0, hv0p, ?_⟩⟩ ?_
      · rintro rfl; simp at hp2
      · have := h2 v0
        obtain ⟨r, hr⟩ := hv0
        omega
      · intro he
        exact absurd (he v0) (Nat.not_even_iff_odd.mpr hv0)

/-- Taking any graph apart: the run returns, every section is nonempty, its points are points of
graph vertices, and every graph vertex's point is on some section. -/
theorem popComponents_any (pk : ℕ → Picker) (ko : ℕ → KeyOrder) (verts : List (V3 α)) :
    ∀ (n : ℕ) (k : ℕ) (g : Graph), entries g.d ≤ n → GoodGraph g.d →
      (∀ v, adj g.d v ≠ ∅ → v < verts.length) →
      ∃ cs, popComponents pk ko verts k g = .ok cs ∧
        (∀ c ∈ cs, c.v ≠ [] ∧ ∀ q ∈ c.v, ∃ i, adj g.d i ≠ ∅ ∧ verts[i]? = some q) ∧
        (∀ i q, adj g.d i ≠ ∅ → verts[i]? = some q → ∃ c ∈ cs, q ∈ c.v) := by
  intro n
  induction n with
  | zero =>
    intro k g hn hg _
    have : g.d = [] := by
      apply eq_nil_of_adj hg
      intro v
      by_contra hc
      obtain ⟨u, hu⟩ := Finset.nonempty_iff_ne_empty.mpr hc
      cases hv : g.d.get? v with
      | none => exact hc (adj_of_none hv)
      | some s =>
        rw [adj_of_get? hv] at hu
        have := step_entries hg hv hu
        omega
    rw [popComponents, if_pos this]
    exact ⟨[], rfl, by simp, by simp [this, adj]⟩
  | succ n ih =>
    intro k g hn hg hlt
    by_cases hd : g.d = []
    · rw [popComponents, if_pos hd]
      exact ⟨[], rfl, by simp, by simp [hd, adj]⟩
    obtain ⟨s, h1, _, h3⟩ := popEulerPath_start (pk k) (ko k) g hg hd
    obtain ⟨p, d', e1, e3, e4, e7, e6, e8⟩ := euler_weak g.d hg s h1 (pk k) 0
    have e1' : popEulerPath (pk k) (ko k) g = .ok (some p.reverse, ⟨g.size, d'⟩) := by
      rw [h3, e1]; rfl
    have hplen : 2 ≤ p.length := by omega
    have e7' : ∀ v, v ∈ p.reverse ↔ Reach (adj g.d) s v := by
      intro v; rw [List.mem_reverse]; exact e7 v
    have hplen' : 2 ≤ p.reverse.length := by simpa using hplen
    generalize p.reverse = p' at *
    have hkeys : ∀ v ∈ p', adj g.d v ≠ ∅ := by
      intro v hv
      have hr := (e7' v).mp hv
      rcases Relation.ReflTransGen.cases_tail hr with h | ⟨b, _, hb⟩
      · rw [h]; exact h1
      · intro h
        have := hg.symm _ _ hb
        rw [h] at this; simp at this
    have hlen : ∀ i ∈ p', i < verts.length := fun i hi => hlt i (hkeys i hi)
    have hlt' : ∀ v, adj d' v ≠ ∅ → v < verts.length := by
      intro v hv; rw [e8] at hv; split at hv
      · exact absurd rfl hv
      · exact hlt v hv
    obtain ⟨cs, f1, f2, f3⟩ := ih (k + 1) ⟨g.size, d'⟩ (by simp only; omega) e3 hlt'
    simp only at f2 f3
    obtain ⟨x, hx⟩ : ∃ x, p'.head? = some x := Option.isSome_iff_exists.mp (by
      cases p' with
      | nil => simp at hplen'
      | cons a l => rfl)
    obtain ⟨y, hy⟩ : ∃ y, p'.getLast? = some y := Option.isSome_iff_exists.mp (by
      cases p' with
      | nil => simp at hplen'
      | cons a l => simp)
    obtain ⟨cv, hcv, hc1, hc2⟩ := component_ok verts p' hlen x y hx hy
    have hforall : ∀ (l : List ℕ) (c : List (V3 α)),
        List.Forall₂ (fun (i : ℕ) (q : V3 α) => verts[i]? = some q) l c →
        (∀ q ∈ c, ∃ i ∈ l, verts[i]? = some q) ∧ (∀ i ∈ l, ∀ q, verts[i]? = some q → q ∈ c) := by
      intro l c h
      induction h with
      | nil => simp
      | @cons i q l c h _ ih' =>
        refine ⟨?_, ?_⟩
        · intro q' hq'
          rcases List.mem_cons.mp hq' with rfl | hq'
          · exact ⟨i, by simp, h⟩
          · obtain ⟨i', hi', h'⟩ := ih'.1 q' hq'
            exact ⟨i', by simp [hi'], h'⟩
        · intro i' hi' q' h'
          rcases List.mem_cons.mp hi' with rfl | hi'
          · rw [h] at h'; injection h' with h'; simp [h']
          · exact List.mem_cons_of_mem _ (ih'.2 i' hi' q' h')
    obtain ⟨c, hc, hcne, hcin, hcout⟩ : ∃ c, component verts p' = .ok c ∧ c.v ≠ [] ∧
        (∀ q ∈ c.v, ∃ i ∈ p', verts[i]? = some q) ∧
        (∀ i ∈ p', ∀ q, verts[i]? = some q → q ∈ c.v) := by
      by_cases hxy : verts[x]? = verts[y]?
      · refine ⟨⟨cv.tail, true⟩, hc1 hxy, ?_⟩
        cases hcv with
        | nil => simp at hplen'
        | @cons i q l c hi hl =>
          simp only [List.head?_cons, Option.some.injEq] at hx
          subst hx
          have hl2 := hforall l c hl
          have hlne : l ≠ [] := by rintro rfl; simp at hplen'
          have hyl : y ∈ l := by
            cases l with
            | nil => exact absurd rfl hlne
            | cons z l => exact List.mem_of_getLast? (by simpa using hy)
          refine ⟨?_, ?_, ?_⟩
          · cases hl with
            | nil => exact absurd rfl hlne
            | cons _ _ => simp
          · intro q' hq'
            obtain ⟨i', h, h'⟩ := hl2.1 q' hq'
            exact ⟨i', List.mem_cons_of_mem _ h, h'⟩
          · intro i' hi' q' hq'
            rcases List.mem_cons.mp hi' with rfl | hi'
            · exact hl2.2 y hyl q' (by rw [← hxy]; exact hq')
            · exact hl2.2 i' hi' q' hq'
      · refine ⟨⟨cv, false⟩, hc2 hxy, ?_, (hforall _ _ hcv).1, (hforall _ _ hcv).2⟩
        cases hcv with
        | nil => simp at hplen'
        | cons _ _ => simp
    refine ⟨c :: cs, ?_, ?_, ?_⟩
    · rw [popComponents, if_neg hd]; simp only [e1', hc, e4, dif_pos, f1]
    · intro c' hc'
      rcases List.mem_cons.mp hc' with rfl | hc'
      · refine ⟨hcne, fun q hq => ?_⟩
        obtain ⟨i, hi, hi'⟩ := hcin q hq
        exact ⟨i, hkeys i hi, hi'⟩
      · refine ⟨(f2 c' hc').1, fun q hq => ?_⟩
        obtain ⟨i, hi, hi'⟩ := (f2 c' hc').2 q hq
        refine ⟨i, ?_, hi'⟩
        rw [e8] at hi
        split at hi
        · exact absurd rfl hi
        · exact hi
    · intro i q hi hq
      by_cases hr : Reach (adj g.d) s i
      · exact ⟨c, by simp, hcout i ((e7' i).mpr hr) q hq⟩
      · obtain ⟨c', hc', h⟩ := f3 i q (by rw [e8, if_neg hr]; exact hi) hq
        exact ⟨c', by simp [hc'], h⟩

end Blmath.Geometry
