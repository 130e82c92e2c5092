import Verif.Proofs.Chord
import Verif.Props.MeshSlice
import Verif.Props.Polyline

/-!
Property C127: the cross-section of a mesh is the intersection of its surface with the plane.
-/

namespace Blmath.Props
open Blmath.Geometry Blmath.Spec Blmath.CH Blmath.Proofs

namespace CH

theorem pairwise_forall {P : Type} {R : P → P → Prop} (hs : ∀ a b, R a b → R b a) {l : List P} (hl : l.Pairwise R) {a b : P}
    (ha : a ∈ l) (hb : b ∈ l) (hne : a ≠ b) : R a b := by
  haveI : Std.Symm R := ⟨hs⟩
  exact hl.forall ha hb hne

/-- The segments of the polylines belong to the faces with corners on both sides, one each. -/
theorem faces_of_traces {α : Type} {R : ℕ × ℕ → V3 α → Prop} {pl : Plane ℝ} {m : Mesh ℝ} (hv : ValidFaces m)
    (hp : ∀ f ∈ m.f, ProperFace f) (hoff : ∀ p ∈ m.v, ¬ OnPlane pl p) (hman : EdgeManifold m)
    (hdis : m.f.Pairwise fun f g => ¬ SameCorners f g) {ess : List (List (ℕ × ℕ))} {cs : List (Section α)}
    (h2 : List.Forall₂ (TracesBy R pl m) ess cs) (h3 : ess.flatten.Nodup)
    (h4 : ∀ e, e ∈ ess.flatten ↔ CrossedEdge pl m e) :
    ∃ fs, fs.Perm (m.f.filter fun f => open Classical in decide (Straddles pl m.v f)) ∧
      List.Forall₂ (fun f (s : V3 α × V3 α) => ∃ e e', e ≠ e' ∧ CrossedEdge pl m e ∧ CrossedEdge pl m e' ∧
        hasEdge f e.1 e.2 = true ∧ hasEdge f e'.1 e'.2 = true ∧ R e s.1 ∧ R e' s.2)
        fs (cs.flatMap fun c => chainSegs c.v c.closed) := by
  obtain ⟨hlen, hz⟩ := List.forall₂_iff_zip.mp h2
  have hfst : (ess.zip cs).map Prod.fst = ess := List.map_fst_zip hlen.le
  obtain ⟨nd, hpw⟩ := List.nodup_flatten.mp h3
  have hdisj : ∀ p ∈ ess.zip cs, ∀ q ∈ ess.zip cs, ∀ e, e ∈ p.1 → e ∈ q.1 → p = q := by
    have : (ess.zip cs).Pairwise fun p q => List.Disjoint p.1 q.1 := by
      rw [← hfst] at hpw
      exact List.pairwise_map.mp hpw
    intro p hp q hq e h1 h2
    by_contra hne
    exact pairwise_forall (fun _ _ h => List.Disjoint.symm h) this hp hq hne h1 h2
  have hmem : ∀ p ∈ ess.zip cs, p.1 ∈ ess := fun p hp => (List.of_mem_zip hp).1
  have tr : ∀ p ∈ ess.zip cs, TracesBy R pl m p.1 p.2 := fun p hp => hz hp
  have segs : ∀ p ∈ ess.zip cs, ∀ s ∈ chainSegs p.1 p.2.closed, Linked pl m s.1 s.2 ∧ s.1 ∈ p.1 := by
    intro p hp s hs
    refine ⟨segs_rel (tr p hp).adjacent (tr p hp).closing hs, ?_⟩
    exact (firsts_sublist p.1 p.2.closed).subset (List.mem_map_of_mem hs)
  obtain ⟨EL, hEL⟩ : ∃ EL, EL = (ess.zip cs).flatMap fun p => chainSegs p.1 p.2.closed := ⟨_, rfl⟩
  have i1 : ∀ s ∈ EL, Linked pl m s.1 s.2 := by
    intro s hs
    rw [hEL, List.mem_flatMap] at hs
    obtain ⟨p, hp, hs⟩ := hs
    exact (segs p hp s hs).1
  have i2 : (EL.map Prod.fst).Nodup := by
    rw [hEL, List.map_flatMap, List.nodup_flatMap]
    refine ⟨fun p hp => (nd p.1 (hmem p hp)).sublist (firsts_sublist _ _), ?_⟩
    have : (ess.zip cs).Pairwise fun p q => List.Disjoint p.1 q.1 := by
      rw [← hfst] at hpw
      exact List.pairwise_map.mp hpw
    refine this.imp ?_
    intro p q h e he he'
    exact h ((firsts_sublist _ _).subset he) ((firsts_sublist _ _).subset he')
  have i3 : ∀ a b, (a, b) ∈ EL → (b, a) ∈ EL → False := by
    intro a b h1 h2
    rw [hEL, List.mem_flatMap] at h1 h2
    obtain ⟨p, hp, h1⟩ := h1
    obtain ⟨q, hq, h2⟩ := h2
    have hb : b ∈ p.1 := by
      rw [(tr p hp).whole a (segs p hp _ h1).2 b]
      exact Relation.ReflTransGen.single (segs p hp _ h1).1
    have := hdisj p hp q hq b hb (segs q hq _ h2).2
    subst this
    exact not_back (nd _ (hmem p hp)) (fun hc => ((tr p hp).closing hc).1) h1 h2
  have i4 : ∀ a b, Linked pl m a b → (a, b) ∈ EL ∨ (b, a) ∈ EL := by
    intro a b h
    obtain ⟨es, hes, ha⟩ := List.mem_flatten.mp ((h4 a).mpr h.2.1)
    rw [← hfst] at hes
    obtain ⟨p, hp, rfl⟩ := List.mem_map.mp hes
    have t := tr p hp
    have := neighbours (R := Linked pl m) (closed := p.2.closed) (fun _ _ => linked_symm) (linked_deg hman)
      (nd _ (hmem p hp)) t.adjacent (fun a ha b hab => (t.whole a ha b).mpr (Relation.ReflTransGen.single hab))
      t.closing t.opening ha h h.1
    rw [hEL]
    exact this.imp (fun k => List.mem_flatMap.mpr ⟨p, hp, k⟩) (fun k => List.mem_flatMap.mpr ⟨p, hp, k⟩)
  have i5 : List.Forall₂ (fun s t => R s.1 t.1 ∧ R s.2 t.2) EL (cs.flatMap fun c => chainSegs c.v c.closed) := by
    rw [hEL]
    clear hEL h3 h4 hlen hz hfst nd hpw hdisj hmem tr segs i1 i2 i3 i4
    induction h2 with
    | nil => exact .nil
    | cons h _ ih =>
      rw [List.zip_cons_cons, List.flatMap_cons, List.flatMap_cons]
      exact List.rel_append (forall₂_chainSegs h.points _) ih
  clear hEL
  have hface : ∀ s : (ℕ × ℕ) × (ℕ × ℕ), ∃ f, s ∈ EL → f ∈ m.f ∧ hasEdge f s.1.1 s.1.2 = true ∧ hasEdge f s.2.1 s.2.2 = true := by
    intro s
    by_cases hs : s ∈ EL
    · obtain ⟨_, _, _, f, hf⟩ := i1 s hs
      exact ⟨f, fun _ => hf⟩
    · exact ⟨(0, 0, 0), fun h => absurd h hs⟩
  choose F hF using hface
  refine ⟨EL.map F, ?_, ?_⟩
  · have nEL : EL.Nodup := List.Nodup.of_map _ i2
    have nf : m.f.Nodup := hdis.imp fun h e => h (by rw [e]; exact fun _ => rfl)
    refine (List.perm_ext_iff_of_nodup ?_ (nf.filter _)).mpr ?_
    · refine List.Nodup.map_on ?_ nEL
      intro s hs t ht hst
      obtain ⟨_, s1, s2⟩ := hF s hs
      obtain ⟨_, t1, t2⟩ := hF t ht
      rw [← hst] at t1 t2
      have ls := i1 s hs
      have lt := i1 t ht
      by_cases he : s.1 = t.1
      · have : s.2 = t.2 := third ls.2.1 ls.2.2.1 lt.2.2.1 s1 s2 t2 ls.1 (he ▸ lt.1)
        exact Prod.ext he this
      · exfalso
        have e1 : s.2 = t.1 := third ls.2.1 ls.2.2.1 lt.2.1 s1 s2 t1 ls.1 he
        have e2 : s.1 = t.2 := by
          by_contra hne
          have := third ls.2.1 ls.2.2.1 lt.2.2.1 s1 s2 t2 ls.1 hne
          exact lt.1 (e1.symm.trans this)
        refine i3 s.1 s.2 hs ?_
        rw [e1, e2]; exact ht
    · intro f
      rw [List.mem_map, List.mem_filter]
      constructor
      · rintro ⟨s, hs, rfl⟩
        obtain ⟨k1, k2, _⟩ := hF s hs
        refine ⟨k1, ?_⟩
        simp only [decide_eq_true_eq]
        simp only [hasEdge, Bool.and_eq_true] at k2
        exact (straddles_cases pl m hoff _ (hv _ k1)).2 _ _ k2.1.2 k2.2 (i1 s hs).2.1.2.2
      · rintro ⟨hf, hs⟩
        simp only [decide_eq_true_eq] at hs
        obtain ⟨a, b, hl, fa, fb⟩ := two_edges hoff hf (hp f hf) (hv f hf) hs
        have fin : ∀ s ∈ EL, hasEdge f s.1.1 s.1.2 = true → hasEdge f s.2.1 s.2.2 = true → F s = f := by
          intro s hs fa fb
          obtain ⟨k1, k2, k3⟩ := hF s hs
          have l := i1 s hs
          by_contra hne
          exact pairwise_forall (fun _ _ h h' => h fun u => (h' u).symm) hdis k1 hf hne
            (same_face (hp _ k1) (hp f hf) l.2.1.1 l.2.2.1.1 l.1 k2 k3 fa fb)
        rcases i4 a b hl with h | h
        · exact ⟨_, h, fin _ h fa fb⟩
        · exact ⟨_, h, fin _ h fb fa⟩
  · rw [List.forall₂_map_left_iff]
    have : ∀ L L', List.Forall₂ (fun s t => R s.1 t.1 ∧ R s.2 t.2) L L' → (∀ s ∈ L, s ∈ EL) →
        List.Forall₂ (fun (s : (ℕ × ℕ) × (ℕ × ℕ)) (t : V3 α × V3 α) => ∃ e e', e ≠ e' ∧ CrossedEdge pl m e ∧ CrossedEdge pl m e' ∧
          hasEdge (F s) e.1 e.2 = true ∧ hasEdge (F s) e'.1 e'.2 = true ∧ R e t.1 ∧ R e' t.2) L L' := by
      intro L L' h
      induction h with
      | nil => intro _; exact .nil
      | @cons s t _ _ h _ ih =>
        intro hs
        have k := i1 s (hs s (by simp))
        have f := hF s (hs s (by simp))
        exact .cons ⟨s.1, s.2, k.1, k.2.1, k.2.2.1, f.2.1, f.2.2, h.1, h.2⟩ (ih fun s h => hs s (by simp [h]))
    exact this _ _ i5 fun _ h => h

/-- a face with all corners strictly on one side has no point on the plane -/
theorem straddles_of_point {pl : Plane ℝ} {m : Mesh ℝ} {f : ℕ × ℕ × ℕ} {q : V3 ℝ} (h : InFace m f q) (hq : OnPlane pl q) :
    Straddles pl m.v f := by
  obtain ⟨a, b, c, ha, hb, hc, s, t, hs, ht, hst, rfl⟩ := h
  rw [onPlane_iff] at hq
  have hh : height pl (along (along a s (vec3 a b)) t (vec3 a c)) =
      (1 - s - t) * height pl a + s * height pl b + t * height pl c := by
    simp only [height, along, vec3, inner3]; ring
  rw [hh] at hq
  have key : ∀ x y z : ℝ, 0 < x → 0 < y → 0 < z → 0 < (1 - s - t) * x + s * y + t * z := by
    intro x y z hx hy hz
    have h1 : 0 ≤ (1 - s - t) * x := mul_nonneg (by linarith) hx.le
    have h2 : 0 ≤ s * y := mul_nonneg hs hy.le
    have h3 : 0 ≤ t * z := mul_nonneg ht hz.le
    rcases hs.eq_or_lt with h | h
    · rcases ht.eq_or_lt with h' | h'
      · rw [← h, ← h']; linarith
      · have := mul_pos h' hz; linarith
    · have := mul_pos h hy; linarith
  refine ⟨a, b, c, ha, hb, hc, ?_, ?_⟩
  · rintro ⟨h1, h2, h3⟩
    have := key _ _ _ h1 h2 h3
    linarith
  · rintro ⟨h1, h2, h3⟩
    have := key _ _ _ (neg_pos.mpr h1) (neg_pos.mpr h2) (neg_pos.mpr h3)
    linarith

theorem corner_get {v : List (V3 ℝ)} {w : V3 ℝ} {i : ℕ} (h : i < v.length) : (v ++ [w])[i]? = v[i]? :=
  List.getElem?_append_left h

theorem get_lt {v : List (V3 ℝ)} {i : ℕ} {a : V3 ℝ} (h : v[i]? = some a) : i < v.length :=
  (List.getElem?_eq_some_iff.mp h).1

/-- of three ratios to numbers that are not all zero one is smallest -/
theorem least_ratio (α β γ l μ ν : ℝ) (hl : 0 ≤ l) (hm : 0 ≤ μ) (hn : 0 ≤ ν) (h1 : l + μ + ν = 1)
    (ha : 0 ≤ α) (hb : 0 ≤ β) (hc : 0 ≤ γ) :
    (0 < l ∧ α * μ ≤ β * l ∧ α * ν ≤ γ * l) ∨ (0 < μ ∧ β * ν ≤ γ * μ ∧ β * l ≤ α * μ) ∨ (0 < ν ∧ γ * l ≤ α * ν ∧ γ * μ ≤ β * ν) := by
  rcases hl.eq_or_lt with h | hl'
  · subst h
    rcases hm.eq_or_lt with h | hm'
    · subst h
      exact Or.inr (Or.inr ⟨by linarith, by nlinarith, by nlinarith⟩)
    · rcases hn.eq_or_lt with h | hn'
      · subst h
        exact Or.inr (Or.inl ⟨hm', by nlinarith, by nlinarith⟩)
      · rcases le_total (β * ν) (γ * μ) with h | h
        · exact Or.inr (Or.inl ⟨hm', h, by nlinarith⟩)
        · exact Or.inr (Or.inr ⟨hn', by nlinarith, h⟩)
  · rcases hm.eq_or_lt with h | hm'
    · subst h
      rcases hn.eq_or_lt with h | hn'
      · subst h
        exact Or.inl ⟨hl', by nlinarith, by nlinarith⟩
      · rcases le_total (α * ν) (γ * l) with h | h
        · exact Or.inl ⟨hl', by nlinarith, h⟩
        · exact Or.inr (Or.inr ⟨hn', h, by nlinarith⟩)
    · rcases hn.eq_or_lt with h | hn'
      · subst h
        rcases le_total (α * μ) (β * l) with h | h
        · exact Or.inl ⟨hl', h, by nlinarith⟩
        · exact Or.inr (Or.inl ⟨hm', by nlinarith, h⟩)
      · have e1 : α * μ ≤ β * l ↔ α / l ≤ β / μ := (div_le_div_iff₀ hl' hm').symm
        have e2 : α * ν ≤ γ * l ↔ α / l ≤ γ / ν := (div_le_div_iff₀ hl' hn').symm
        have e3 : β * ν ≤ γ * μ ↔ β / μ ≤ γ / ν := (div_le_div_iff₀ hm' hn').symm
        have e4 : β * l ≤ α * μ ↔ β / μ ≤ α / l := (div_le_div_iff₀ hm' hl').symm
        have e5 : γ * l ≤ α * ν ↔ γ / ν ≤ α / l := (div_le_div_iff₀ hn' hl').symm
        have e6 : γ * μ ≤ β * ν ↔ γ / ν ≤ β / μ := (div_le_div_iff₀ hn' hm').symm
        rw [e1, e2, e3, e4, e5, e6]
        simp only [hl', hm', hn', true_and]
        generalize α / l = x
        generalize β / μ = y
        generalize γ / ν = z
        rcases le_total x y with h | h
        · rcases le_total x z with h' | h'
          · exact Or.inl ⟨h, h'⟩
          · exact Or.inr (Or.inr ⟨h', h'.trans h⟩)
        · rcases le_total y z with h' | h'
          · exact Or.inr (Or.inl ⟨h', h⟩)
          · exact Or.inr (Or.inr ⟨h'.trans h, h'⟩)

/-- the part opposite the corner with the smallest ratio -/
theorem part_of {a b c w q : V3 ℝ} {α β γ l μ ν : ℝ} (hl : 0 < l) (h1 : l + μ + ν = 1) (ha : 0 ≤ α)
    (h2 : α + β + γ = 1) (k1 : α * μ ≤ β * l) (k2 : α * ν ≤ γ * l)
    (hw : w = ⟨l * a.x + μ * b.x + ν * c.x, l * a.y + μ * b.y + ν * c.y, l * a.z + μ * b.z + ν * c.z⟩)
    (hq : q = ⟨α * a.x + β * b.x + γ * c.x, α * a.y + β * b.y + γ * c.y, α * a.z + β * b.z + γ * c.z⟩) :
    InTriangle b c w q := by
  have e1 : 0 ≤ β - α / l * μ := by
    have : α / l * μ = α * μ / l := by ring
    rw [this, sub_nonneg, div_le_iff₀ hl]; exact k1
  have e2 : 0 ≤ γ - α / l * ν := by
    have : α / l * ν = α * ν / l := by ring
    rw [this, sub_nonneg, div_le_iff₀ hl]; exact k2
  have e3 : α = α / l * l := by field_simp
  have e0 : 0 ≤ α / l := div_nonneg ha hl.le
  generalize α / l = k at *
  refine ⟨γ - k * ν, k, e2, e0, ?_, ?_⟩
  · have : 1 = k * l + β + γ := by rw [← e3]; linarith
    have : k * (l + μ + ν) = k := by rw [h1, mul_one]
    nlinarith
  · have hb : β = 1 - k * l - γ := by rw [← e3]; linarith
    have hm : μ = 1 - l - ν := by linarith
    rw [hq, hw, e3, hb, hm]
    ext <;> simp only [along, vec3] <;> ring

theorem triangle_split {a b c w : V3 ℝ} (hw : InTriangle a b c w) (q : V3 ℝ) :
    InTriangle a b c q ↔ InTriangle a b w q ∨ InTriangle b c w q ∨ InTriangle c a w q := by
  have inside : ∀ {a b c w : V3 ℝ}, InTriangle a b c w → ∀ q, InTriangle a b w q → InTriangle a b c q := by
    rintro a b c w ⟨s, t, s0, t0, hst, rfl⟩ q ⟨p, r, p0, r0, hpr, rfl⟩
    refine ⟨p + r * s, r * t, by positivity, by positivity, ?_, ?_⟩
    · nlinarith
    · ext <;> simp only [along, vec3] <;> ring
  constructor
  · rintro ⟨p, r, p0, r0, hpr, hq⟩
    obtain ⟨s, t, s0, t0, hst, hw⟩ := hw
    have hw' : w = ⟨(1 - s - t) * a.x + s * b.x + t * c.x, (1 - s - t) * a.y + s * b.y + t * c.y,
        (1 - s - t) * a.z + s * b.z + t * c.z⟩ := by
      rw [hw]; ext <;> simp only [along, vec3] <;> ring
    have hq' : q = ⟨(1 - p - r) * a.x + p * b.x + r * c.x, (1 - p - r) * a.y + p * b.y + r * c.y,
        (1 - p - r) * a.z + p * b.z + r * c.z⟩ := by
      rw [hq]; ext <;> simp only [along, vec3] <;> ring
    rcases least_ratio (1 - p - r) p r (1 - s - t) s t (by linarith) s0 t0 (by ring) (by linarith) p0 r0 with h | h | h
    · exact Or.inr (Or.inl (part_of h.1 (by ring) (by linarith) (by ring) h.2.1 h.2.2 hw' hq'))
    · refine Or.inr (Or.inr (part_of (α := p) (β := r) (γ := 1 - p - r) (l := s) (μ := t) (ν := 1 - s - t) (a := b) h.1 (by ring) p0
        (by ring) h.2.1 h.2.2 ?_ ?_))
      · rw [hw']; ext <;> simp only <;> ring
      · rw [hq']; ext <;> simp only <;> ring
    · refine Or.inl (part_of (α := r) (β := 1 - p - r) (γ := p) (l := t) (μ := 1 - s - t) (ν := s) (a := c) h.1 (by ring) r0
        (by ring) h.2.1 h.2.2 ?_ ?_)
      · rw [hw']; ext <;> simp only <;> ring
      · rw [hq']; ext <;> simp only <;> ring
  · rintro (h | h | h)
    · exact inside hw q h
    · have := inside (triangle_turn hw) q h
      exact triangle_turn (triangle_turn this)
    · have := inside (triangle_turn (triangle_turn hw)) q h
      exact triangle_turn this

theorem inFace_append {v : List (V3 ℝ)} {fs gs : List (ℕ × ℕ × ℕ)} {w : V3 ℝ} {f : ℕ × ℕ × ℕ}
    (hf : f.1 < v.length ∧ f.2.1 < v.length ∧ f.2.2 < v.length) (q : V3 ℝ) :
    InFace ⟨v ++ [w], fs⟩ f q ↔ InFace ⟨v, gs⟩ f q := by
  unfold InFace
  simp only [corner_get hf.1, corner_get hf.2.1, corner_get hf.2.2]

/-- dividing a face does not change the surface -/
theorem surface_split (v : List (V3 ℝ)) (pre post : List (ℕ × ℕ × ℕ)) (x y z : ℕ) (w : V3 ℝ)
    (hv : ValidFaces (⟨v, pre ++ [(x, y, z)] ++ post⟩ : Mesh ℝ)) (hw : InFace ⟨v, pre ++ [(x, y, z)] ++ post⟩ (x, y, z) w) (q : V3 ℝ) :
    OnSurface ⟨v, pre ++ [(x, y, z)] ++ post⟩ q ↔ OnSurface (splitFace v pre post x y z w) q := by
  obtain ⟨a, b, c, ha, hb, hc, hw⟩ := hw
  simp only at ha hb hc
  have ga : (v ++ [w])[x]? = some a := by rw [corner_get (get_lt ha)]; exact ha
  have gb : (v ++ [w])[y]? = some b := by rw [corner_get (get_lt hb)]; exact hb
  have gc : (v ++ [w])[z]? = some c := by rw [corner_get (get_lt hc)]; exact hc
  have gw : (v ++ [w])[v.length]? = some w := by simp
  have key : InFace ⟨v, pre ++ [(x, y, z)] ++ post⟩ (x, y, z) q ↔
      InFace (splitFace v pre post x y z w) (x, y, v.length) q ∨ InFace (splitFace v pre post x y z w) (y, z, v.length) q ∨
        InFace (splitFace v pre post x y z w) (z, x, v.length) q := by
    rw [inFace_iff ha hb hc, inFace_iff (m := splitFace v pre post x y z w) ga gb gw,
      inFace_iff (m := splitFace v pre post x y z w) gb gc gw, inFace_iff (m := splitFace v pre post x y z w) gc ga gw]
    exact triangle_split hw q
  have old : ∀ f, f ∈ pre ∨ f ∈ post → (InFace (splitFace v pre post x y z w) f q ↔ InFace ⟨v, pre ++ [(x, y, z)] ++ post⟩ f q) := by
    intro f hf
    have := hv f (by rcases hf with h | h <;> simp [h])
    exact inFace_append this q
  constructor
  · rintro ⟨f, hf, hq⟩
    simp only [List.mem_append, List.mem_singleton] at hf
    rcases hf with (hf | rfl) | hf
    · exact ⟨f, by simp [splitFace, hf], (old f (Or.inl hf)).mpr hq⟩
    · rcases key.mp hq with h | h | h
      · exact ⟨_, by simp [splitFace], h⟩
      · exact ⟨_, by simp [splitFace], h⟩
      · exact ⟨_, by simp [splitFace], h⟩
    · exact ⟨f, by simp [splitFace, hf], (old f (Or.inr hf)).mpr hq⟩
  · rintro ⟨f, hf, hq⟩
    simp only [splitFace, List.mem_append, List.mem_cons, List.not_mem_nil, or_false] at hf
    rcases hf with (hf | rfl | rfl | rfl) | hf
    · exact ⟨f, by simp [hf], (old f (Or.inl hf)).mp hq⟩
    · exact ⟨_, by simp, key.mpr (Or.inl hq)⟩
    · exact ⟨_, by simp, key.mpr (Or.inr (Or.inl hq))⟩
    · exact ⟨_, by simp, key.mpr (Or.inr (Or.inr hq))⟩
    · exact ⟨f, by simp [hf], (old f (Or.inr hf)).mp hq⟩

/-- dividing a face of a closed mesh gives a closed mesh of proper faces -/
theorem split_closed (v : List (V3 ℝ)) (pre post : List (ℕ × ℕ × ℕ)) (x y z : ℕ) (w : V3 ℝ)
    (hv : ValidFaces (⟨v, pre ++ [(x, y, z)] ++ post⟩ : Mesh ℝ)) (hp : ∀ f ∈ pre ++ [(x, y, z)] ++ post, ProperFace f)
    (hcl : ClosedMesh ⟨v, pre ++ [(x, y, z)] ++ post⟩) :
    ValidFaces (splitFace v pre post x y z w) ∧ (∀ f ∈ (splitFace v pre post x y z w).f, ProperFace f) ∧
      ClosedMesh (splitFace v pre post x y z w) := by
  have hxyz := hv (x, y, z) (by simp)
  have pxyz := hp (x, y, z) (by simp)
  simp only [ProperFace] at hxyz pxyz
  obtain ⟨hx, hy, hz⟩ := hxyz
  obtain ⟨n1, n2, n3⟩ := pxyz
  have old : ∀ f, f ∈ pre ∨ f ∈ post → f ∈ pre ++ [(x, y, z)] ++ post := by
    rintro f (h | h) <;> simp [h]
  have oldlt : ∀ f, f ∈ pre ∨ f ∈ post → ∀ u, corner f u = true → u < v.length := by
    intro f hf u hu
    have := hv f (old f hf)
    simp only [corner, decide_eq_true_eq] at hu this
    rcases hu with rfl | rfl | rfl
    · exact this.1
    · exact this.2.1
    · exact this.2.2
  refine ⟨?_, ?_, ?_, ?_⟩
  · intro f hf
    simp only [splitFace, List.mem_append, List.mem_cons, List.not_mem_nil, or_false] at hf
    have hl : (splitFace v pre post x y z w).v.length = v.length + 1 := by simp [splitFace]
    rw [hl]
    rcases hf with (hf | rfl | rfl | rfl) | hf
    · have := hv f (old f (Or.inl hf)); simp only at this; omega
    · simp only; omega
    · simp only; omega
    · simp only; omega
    · have := hv f (old f (Or.inr hf)); simp only at this; omega
  · intro f hf
    simp only [splitFace, List.mem_append, List.mem_cons, List.not_mem_nil, or_false] at hf
    rcases hf with (hf | rfl | rfl | rfl) | hf
    · exact hp f (old f (Or.inl hf))
    · simp only [ProperFace]; omega
    · simp only [ProperFace]; omega
    · simp only [ProperFace]; omega
    · exact hp f (old f (Or.inr hf))
  · -- two faces at each edge
    intro f hf s t hst
    have count : ∀ s t, s ≠ v.length → t ≠ v.length →
        (([(x, y, v.length), (y, z, v.length), (z, x, v.length)] : List (ℕ × ℕ × ℕ)).filter fun f => hasEdge f s t).length =
          (([(x, y, z)] : List (ℕ × ℕ × ℕ)).filter fun f => hasEdge f s t).length := by
      intro s t hs ht
      have e1 : hasEdge (x, y, v.length) s t = (decide (s ≠ t) && decide (s = x ∨ s = y) && decide (t = x ∨ t = y)) := by
        simp [hasEdge, corner, hs, ht]
      have e2 : hasEdge (y, z, v.length) s t = (decide (s ≠ t) && decide (s = y ∨ s = z) && decide (t = y ∨ t = z)) := by
        simp [hasEdge, corner, hs, ht]
      have e3 : hasEdge (z, x, v.length) s t = (decide (s ≠ t) && decide (s = z ∨ s = x) && decide (t = z ∨ t = x)) := by
        simp [hasEdge, corner, hs, ht]
      have e4 : hasEdge (x, y, z) s t = (decide (s ≠ t) && decide (s = x ∨ s = y ∨ s = z) && decide (t = x ∨ t = y ∨ t = z)) := by
        simp [hasEdge, corner]
      simp only [List.filter_cons, List.filter_nil, e1, e2, e3, e4]
      by_cases s1 : s = x
      · subst s1
        by_cases t1 : t = y
        · subst t1; simp [n1, n2, n3, n1.symm, n2.symm, n3.symm]
        · by_cases t2 : t = z
          · subst t2; simp [n1, n2, n3, n1.symm, n2.symm, n3.symm]
          · have t3 : s = t ∨ t ≠ s := by omega
            rcases t3 with rfl | t3
            · simp
            · simp [t1, t2, t3]
      · by_cases s2 : s = y
        · subst s2
          by_cases t1 : t = x
          · subst t1; simp [n1, n2, n3, n1.symm, n2.symm, n3.symm]
          · by_cases t2 : t = z
            · subst t2; simp [n1, n2, n3, n1.symm, n2.symm, n3.symm]
            · have t3 : s = t ∨ t ≠ s := by omega
              rcases t3 with rfl | t3
              · simp
              · simp [t1, t2, t3]
        · by_cases s3 : s = z
          · subst s3
            by_cases t1 : t = x
            · subst t1; simp [n1, n2, n3, n1.symm, n2.symm, n3.symm]
            · by_cases t2 : t = y
              · subst t2; simp [n1, n2, n3, n1.symm, n2.symm, n3.symm]
              · have t3 : s = t ∨ t ≠ s := by omega
                rcases t3 with rfl | t3
                · simp
                · simp [t1, t2, t3]
          · simp [s1, s2, s3]
    have none_old : ∀ L : List (ℕ × ℕ × ℕ), (∀ f ∈ L, f ∈ pre ∨ f ∈ post) → ∀ s t, s = v.length ∨ t = v.length →
        L.filter (fun f => hasEdge f s t) = [] := by
      intro L hL s t hst
      rw [List.filter_eq_nil_iff]
      intro f hf h
      simp only [hasEdge, Bool.and_eq_true] at h
      have h1 := oldlt f (hL f hf) s h.1.2
      have h2 := oldlt f (hL f hf) t h.2
      omega
    simp only [splitFace, List.filter_append, List.length_append]
    by_cases hn : s = v.length ∨ t = v.length
    · rw [none_old pre (fun _ h => Or.inl h) s t hn, none_old post (fun _ h => Or.inr h) s t hn]
      simp only [splitFace, List.mem_append, List.mem_cons, List.not_mem_nil, or_false] at hf
      have hnew : f = (x, y, v.length) ∨ f = (y, z, v.length) ∨ f = (z, x, v.length) := by
        rcases hf with (hf | hf) | hf
        · exfalso
          simp only [hasEdge, Bool.and_eq_true] at hst
          have h1 := oldlt f (Or.inl hf) s hst.1.2
          have h2 := oldlt f (Or.inl hf) t hst.2
          omega
        · exact hf
        · exfalso
          simp only [hasEdge, Bool.and_eq_true] at hst
          have h1 := oldlt f (Or.inr hf) s hst.1.2
          have h2 := oldlt f (Or.inr hf) t hst.2
          omega
      have hst' : s ≠ t ∧ ((s = v.length ∧ (t = x ∨ t = y ∨ t = z)) ∨ (t = v.length ∧ (s = x ∨ s = y ∨ s = z))) := by
        simp only [hasEdge, corner, Bool.and_eq_true, decide_eq_true_eq] at hst
        rcases hnew with rfl | rfl | rfl <;> simp only at hst <;> omega
      have dx : v.length ≠ x := by omega
      have dy : v.length ≠ y := by omega
      have dz : v.length ≠ z := by omega
      rcases hst'.2 with ⟨rfl, rfl | rfl | rfl⟩ | ⟨rfl, rfl | rfl | rfl⟩ <;>
        simp [hasEdge, corner, n1, n2, n3, n1.symm, n2.symm, n3.symm, dx, dy, dz, dx.symm, dy.symm, dz.symm]
    · push Not at hn
      rw [count s t hn.1 hn.2]
      obtain ⟨g, hg, hge⟩ : ∃ g ∈ pre ++ [(x, y, z)] ++ post, hasEdge g s t = true := by
        simp only [splitFace, List.mem_append, List.mem_cons, List.not_mem_nil, or_false] at hf
        rcases hf with (hf | hf) | hf
        · exact ⟨f, old f (Or.inl hf), hst⟩
        · refine ⟨(x, y, z), by simp, ?_⟩
          simp only [hasEdge, corner, Bool.and_eq_true, decide_eq_true_eq] at hst ⊢
          rcases hf with rfl | rfl | rfl <;> simp only at hst <;> omega
        · exact ⟨f, old f (Or.inr hf), hst⟩
      have := hcl.1 g hg s t hge
      simpa only [List.filter_append, List.length_append] using this
  · -- different corners
    have hd := hcl.2
    simp only [splitFace]
    have hsub : (pre ++ post).Pairwise fun f g => ¬ SameCorners f g := by
      refine hd.sublist ?_
      rw [List.append_assoc]
      exact List.Sublist.append_left (by simp) pre
    have has : ∀ f ∈ ([(x, y, v.length), (y, z, v.length), (z, x, v.length)] : List (ℕ × ℕ × ℕ)), corner f v.length = true := by
      intro f hf
      simp only [List.mem_cons, List.not_mem_nil, or_false] at hf
      rcases hf with rfl | rfl | rfl <;> simp [corner]
    have hasnt : ∀ f, f ∈ pre ∨ f ∈ post → ¬ corner f v.length = true := fun f hf h => absurd (oldlt f hf _ h) (lt_irrefl _)
    rw [List.append_assoc, List.pairwise_append]
    rw [List.pairwise_append] at hsub
    refine ⟨hsub.1, ?_, ?_⟩
    · rw [List.pairwise_append]
      refine ⟨?_, hsub.2.1, ?_⟩
      · simp only [List.pairwise_cons, List.mem_cons, List.not_mem_nil, or_false, SameCorners]
        have dx : x ≠ v.length := by omega
        have dy : y ≠ v.length := by omega
        have dz : z ≠ v.length := by omega
        refine ⟨?_, ?_, by simp, List.Pairwise.nil⟩
        · rintro g (rfl | rfl) h
          · have := h x; simp [corner, n1, n3, dx] at this
          · have := h y; simp [corner, n2, n1.symm, dy] at this
        · rintro g rfl h
          have := h y; simp [corner, n2, n1.symm, dy] at this
      · intro f hf g hg h
        have := h v.length
        rw [has f hf] at this
        exact hasnt g (Or.inr hg) this.symm
    · intro f hf g hg h
      rcases List.mem_append.mp hg with hg | hg
      · have := h v.length
        rw [has g hg] at this
        exact hasnt f (Or.inl hf) this
      · exact hsub.2.2 f hf g hg h

end CH

open CH

/-- **C127.** A mesh of triangles with different corners, at most two of them at each edge, no vertex on the plane, and
which is closed or has its crossing points all different: the segments of the returned polylines correspond one to one to
the faces with corners on both sides of the plane, and each segment is exactly what its face and the plane have in common. -/
theorem C127_faces (ver : PyVer) (pk : ℕ → Picker) (ko : ℕ → KeyOrder) (pl : Plane ℝ) (m : Mesh ℝ)
    (hv : ValidFaces m) (hp : ∀ f ∈ m.f, ProperFace f) (hoff : ∀ p ∈ m.v, ¬ OnPlane pl p)
    (hman : EdgeManifold m) (hdis : m.f.Pairwise fun f g => ¬ SameCorners f g) (hsep : ClosedMesh m ∨ CrossingsApart pl m) :
    ∃ cs fs, pl.meshXsections ver pk ko m = .ok cs ∧
      fs.Perm (m.f.filter fun f => open Classical in decide (Straddles pl m.v f)) ∧
      List.Forall₂ (Chord pl m) fs (cs.flatMap fun c => chainSegs c.v c.closed) := by
  obtain ⟨cs, ess, h1, h2, h3, h4, h5⟩ := C31_manifold ver pk ko pl m hv hp hoff hman hsep
  obtain ⟨fs, k1, k2⟩ := faces_of_traces hv hp hoff hman hdis h2 h3 h4
  refine ⟨cs, fs, h1, k1, k2.imp ?_⟩
  rintro f ⟨p, q⟩ ⟨e, e', n, c1, c2, f1, f2, r1, r2⟩
  exact chord_of n c1 c2 f1 f2 r1 r2

/-- **C127.** The points of the polylines are the points the surface and the plane have in common. -/
theorem C127_points (ver : PyVer) (pk : ℕ → Picker) (ko : ℕ → KeyOrder) (pl : Plane ℝ) (m : Mesh ℝ)
    (hv : ValidFaces m) (hp : ∀ f ∈ m.f, ProperFace f) (hoff : ∀ p ∈ m.v, ¬ OnPlane pl p)
    (hman : EdgeManifold m) (hdis : m.f.Pairwise fun f g => ¬ SameCorners f g) (hsep : ClosedMesh m ∨ CrossingsApart pl m) :
    ∃ cs, pl.meshXsections ver pk ko m = .ok cs ∧
      ∀ q, (∃ c ∈ cs, OnChain c.v c.closed q) ↔ OnPlane pl q ∧ OnSurface m q := by
  obtain ⟨cs, fs, h1, h2, h3⟩ := C127_faces ver pk ko pl m hv hp hoff hman hdis hsep
  refine ⟨cs, h1, fun q => ⟨?_, ?_⟩⟩
  · rintro ⟨c, hc, s, hs, hq⟩
    have hs' : s ∈ cs.flatMap fun c => chainSegs c.v c.closed := List.mem_flatMap.mpr ⟨c, hc, hs⟩
    obtain ⟨f, hf, hch⟩ : ∃ f ∈ fs, Chord pl m f s := by
      clear h2
      generalize (cs.flatMap fun c => chainSegs c.v c.closed) = L at h3 hs'
      induction h3 with
      | nil => simp at hs'
      | cons h _ ih =>
        rcases List.mem_cons.mp hs' with rfl | hs'
        · exact ⟨_, by simp, h⟩
        · obtain ⟨f, hf, k⟩ := ih hs'
          exact ⟨f, by simp [hf], k⟩
    have := (hch q).mp hq
    exact ⟨this.1, f, (List.mem_filter.mp (h2.subset hf)).1, this.2⟩
  · rintro ⟨hq, f, hf, hq'⟩
    have hf' : f ∈ fs := by
      refine h2.mem_iff.mpr (List.mem_filter.mpr ⟨hf, ?_⟩)
      simp only [decide_eq_true_eq]
      exact straddles_of_point hq' hq
    obtain ⟨s, hs, hch⟩ : ∃ s ∈ cs.flatMap fun c => chainSegs c.v c.closed, Chord pl m f s := by
      clear h2
      generalize (cs.flatMap fun c => chainSegs c.v c.closed) = L at h3
      induction h3 with
      | nil => simp at hf'
      | cons h _ ih =>
        rcases List.mem_cons.mp hf' with rfl | hf'
        · exact ⟨_, by simp, h⟩
        · obtain ⟨s, hs, k⟩ := ih hf'
          exact ⟨s, by simp [hs], k⟩
    obtain ⟨c, hc, hs⟩ := List.mem_flatMap.mp hs
    exact ⟨c, hc, s, hs, (hch q).mpr ⟨hq, hq'⟩⟩

/-- **C127.** The cross-section depends on the surface only: two closed meshes covering the same points, divided into
triangles and numbered in any way, are cut in the same points. -/
theorem C127_same_surface (ver ver' : PyVer) (pk pk' : ℕ → Picker) (ko ko' : ℕ → KeyOrder) (pl : Plane ℝ) (m m' : Mesh ℝ)
    (hv : ValidFaces m) (hp : ∀ f ∈ m.f, ProperFace f) (hoff : ∀ p ∈ m.v, ¬ OnPlane pl p) (hcl : ClosedMesh m)
    (hv' : ValidFaces m') (hp' : ∀ f ∈ m'.f, ProperFace f) (hoff' : ∀ p ∈ m'.v, ¬ OnPlane pl p) (hcl' : ClosedMesh m')
    (hsame : ∀ q, OnSurface m q ↔ OnSurface m' q) :
    ∃ cs cs', pl.meshXsections ver pk ko m = .ok cs ∧ pl.meshXsections ver' pk' ko' m' = .ok cs' ∧
      ∀ q, (∃ c ∈ cs, OnChain c.v c.closed q) ↔ ∃ c ∈ cs', OnChain c.v c.closed q := by
  have man : ∀ m : Mesh ℝ, ClosedMesh m → EdgeManifold m := by
    intro m h u v
    by_cases hc : ∃ f ∈ m.f, hasEdge f u v = true
    · obtain ⟨f, hf, hc⟩ := hc
      exact (h.1 f hf u v hc).le
    · rw [List.filter_eq_nil_iff.mpr (by simpa using hc)]
      simp
  obtain ⟨cs, h1, h2⟩ := C127_points ver pk ko pl m hv hp hoff (man m hcl) hcl.2 (Or.inl hcl)
  obtain ⟨cs', h1', h2'⟩ := C127_points ver' pk' ko' pl m' hv' hp' hoff' (man m' hcl') hcl'.2 (Or.inl hcl')
  exact ⟨cs, cs', h1, h1', fun q => by rw [h2, h2', hsame]⟩

/-- **C127.** Dividing a face of a closed mesh into three by a further vertex in it, not on the plane, does not change the
points of the cross-section. -/
theorem C127_split (ver ver' : PyVer) (pk pk' : ℕ → Picker) (ko ko' : ℕ → KeyOrder) (pl : Plane ℝ) (v : List (V3 ℝ))
    (pre post : List (ℕ × ℕ × ℕ)) (x y z : ℕ) (w : V3 ℝ) (hv : ValidFaces (⟨v, pre ++ [(x, y, z)] ++ post⟩ : Mesh ℝ))
    (hp : ∀ f ∈ pre ++ [(x, y, z)] ++ post, ProperFace f) (hoff : ∀ p ∈ v, ¬ OnPlane pl p)
    (hcl : ClosedMesh ⟨v, pre ++ [(x, y, z)] ++ post⟩) (hw : InFace ⟨v, pre ++ [(x, y, z)] ++ post⟩ (x, y, z) w)
    (hwp : ¬ OnPlane pl w) :
    ∃ cs cs', pl.meshXsections ver pk ko ⟨v, pre ++ [(x, y, z)] ++ post⟩ = .ok cs ∧
      pl.meshXsections ver' pk' ko' (splitFace v pre post x y z w) = .ok cs' ∧
      ∀ q, (∃ c ∈ cs, OnChain c.v c.closed q) ↔ ∃ c ∈ cs', OnChain c.v c.closed q := by
  obtain ⟨h1, h2, h3⟩ := split_closed v pre post x y z w hv hp hcl
  refine C127_same_surface ver ver' pk pk' ko ko' pl _ _ hv hp hoff hcl h1 h2 ?_ h3 (surface_split v pre post x y z w hv hw)
  intro p hp
  simp only [splitFace, List.mem_append, List.mem_singleton] at hp
  rcases hp with h | rfl
  · exact hoff p h
  · exact hwp

/-- **C127.** The lengths of the polylines add up to the sum, over the faces with corners on both sides, of the length of
what the face and the plane have in common. -/
theorem C127_length (ver : PyVer) (pk : ℕ → Picker) (ko : ℕ → KeyOrder) (pl : Plane ℝ) (m : Mesh ℝ)
    (hv : ValidFaces m) (hp : ∀ f ∈ m.f, ProperFace f) (hoff : ∀ p ∈ m.v, ¬ OnPlane pl p)
    (hman : EdgeManifold m) (hdis : m.f.Pairwise fun f g => ¬ SameCorners f g) (hsep : ClosedMesh m ∨ CrossingsApart pl m) :
    ∃ cs ls ds, pl.meshXsections ver pk ko m = .ok cs ∧
      List.Forall₂ (fun (c : Section ℝ) l => (poly c.v c.closed).totalLength = .ok l) cs ls ∧
      List.Forall₂ (ChordLength pl m) (m.f.filter fun f => open Classical in decide (Straddles pl m.v f)) ds ∧
      ls.sum = ds.sum := by
  obtain ⟨cs, fs, h1, h2, h3⟩ := C127_faces ver pk ko pl m hv hp hoff hman hdis hsep
  have h4 : List.Forall₂ (ChordLength pl m) fs ((cs.flatMap fun c => chainSegs c.v c.closed).map fun s => dist3 s.1 s.2) := by
    rw [List.forall₂_map_right_iff]
    exact h3.imp fun f s h => ⟨s.1, s.2, h, rfl⟩
  obtain ⟨ds, h5, h6⟩ := List.perm_comp_forall₂ h2.symm h4
  refine ⟨cs, cs.map fun c => pathLength (circuit c.v c.closed), ds, h1, ?_, h5, ?_⟩
  · rw [List.forall₂_map_right_iff]
    exact List.forall₂_same.mpr fun c _ => (C35_lengths c.v c.closed).2
  · rw [h6.sum_eq]
    clear h1 h2 h3 h4 h5 h6
    induction cs with
    | nil => rfl
    | cons c cs ih =>
      rw [List.map_cons, List.sum_cons, ih, List.flatMap_cons, List.map_append, List.sum_append]
      rfl

/-- the length of what a face and a plane have in common is determined by them -/
theorem C127_length_unique (pl : Plane ℝ) (m : Mesh ℝ) (f : ℕ × ℕ × ℕ) (d d' : ℝ) (h : ChordLength pl m f d)
    (h' : ChordLength pl m f d') : d = d' := by
  obtain ⟨a, b, h1, rfl⟩ := h
  obtain ⟨a', b', h2, rfl⟩ := h'
  have key : ∀ a b a' b' : V3 ℝ, OnSegment a b a' → OnSegment a b b' → dist3 a' b' ≤ dist3 a b := by
    rintro a b a' b' ⟨s, s0, s1, rfl⟩ ⟨t, t0, t1, rfl⟩
    unfold dist3 len3
    apply Real.sqrt_le_sqrt
    have e : (vec3 (along a s (vec3 a b)) (along a t (vec3 a b))).x ^ 2 + (vec3 (along a s (vec3 a b)) (along a t (vec3 a b))).y ^ 2 +
        (vec3 (along a s (vec3 a b)) (along a t (vec3 a b))).z ^ 2 =
        (t - s) ^ 2 * ((vec3 a b).x ^ 2 + (vec3 a b).y ^ 2 + (vec3 a b).z ^ 2) := by
      simp only [along, vec3]; ring
    rw [e]
    have : (t - s) ^ 2 ≤ 1 := by nlinarith
    have h0 : 0 ≤ (vec3 a b).x ^ 2 + (vec3 a b).y ^ 2 + (vec3 a b).z ^ 2 := by positivity
    nlinarith
  have left : ∀ a b : V3 ℝ, OnSegment a b a := fun a b => ⟨0, le_rfl, by norm_num, by ext <;> simp [along]⟩
  have right : ∀ a b : V3 ℝ, OnSegment a b b := fun a b => ⟨1, by norm_num, le_rfl, by ext <;> simp [along, vec3]⟩
  have e : ∀ q, OnSegment a b q ↔ OnSegment a' b' q := fun q => (h1 q).trans (h2 q).symm
  exact le_antisymm (key _ _ _ _ ((e a).mp (left a b)) ((e b).mp (right a b)))
    (key _ _ _ _ ((e a').mpr (left a' b')) ((e b').mpr (right a' b')))

/-! The tetrahedron of C31, one face divided at its centre, and a single triangle. -/

/-- the tetrahedron with its first face divided meets the hypotheses, and `(1/4, 1/4, 0)`, inside that face, is a point of
both cross-sections and the vertex of none -/
example (pk pk' : ℕ → Picker) (ko ko' : ℕ → KeyOrder) :
    ∃ cs cs', ground.meshXsections .py3 pk ko tetra = .ok cs ∧
      ground.meshXsections .py2 pk' ko' (splitFace tetra.v [] [(0, 2, 3), (0, 3, 1), (1, 3, 2)] 0 1 2 ⟨1 / 3, 1 / 3, -1 / 3⟩) = .ok cs' ∧
      (∃ c ∈ cs, OnChain c.v c.closed ⟨1 / 4, 1 / 4, 0⟩) ∧ (∃ c ∈ cs', OnChain c.v c.closed ⟨1 / 4, 1 / 4, 0⟩) := by
  have ok := tetra_ok
  have hw : InFace tetra (0, 1, 2) ⟨1 / 3, 1 / 3, -1 / 3⟩ :=
    ⟨⟨0, 0, 1⟩, ⟨1, 0, -1⟩, ⟨0, 1, -1⟩, rfl, rfl, rfl, 1 / 3, 1 / 3, by norm_num, by norm_num, by norm_num, by
      ext <;> norm_num [along, vec3]⟩
  obtain ⟨cs, cs', h1, h2, h3⟩ := C127_split .py3 .py2 pk pk' ko ko' ground tetra.v [] [(0, 2, 3), (0, 3, 1), (1, 3, 2)] 0 1 2
    ⟨1 / 3, 1 / 3, -1 / 3⟩ ok.1 ok.2.1 ok.2.2.1 tetra_closed hw (by norm_num [onPlane_iff, ground, height, inner3, vec3])
  obtain ⟨cs1, k1, k2⟩ := C127_points .py3 pk ko ground tetra ok.1 ok.2.1 ok.2.2.1 ok.2.2.2.1 tetra_closed.2 (Or.inl tetra_closed)
  have e : cs1 = cs := Except.ok.inj (k1.symm.trans h1)
  subst e
  have hq := (k2 ⟨1 / 4, 1 / 4, 0⟩).mpr ⟨by norm_num [onPlane_iff, ground, height, inner3, vec3], (0, 1, 2), by simp [tetra],
    ⟨0, 0, 1⟩, ⟨1, 0, -1⟩, ⟨0, 1, -1⟩, rfl, rfl, rfl, 1 / 4, 1 / 4, by norm_num, by norm_num, by norm_num, by
      ext <;> norm_num [along, vec3]⟩
  exact ⟨cs1, cs', h1, h2, hq, (h3 _).mp hq⟩

/-- one triangle: the cross-section is one open polyline and its length is that of the chord -/
example (pk : ℕ → Picker) (ko : ℕ → KeyOrder) :
    let m : Mesh ℝ := ⟨[⟨0, 0, 1⟩, ⟨1, 0, -1⟩, ⟨0, 1, -1⟩], [(0, 1, 2)]⟩
    ∃ cs ls, ground.meshXsections .py3 pk ko m = .ok cs ∧
      List.Forall₂ (fun (c : Section ℝ) l => (poly c.v c.closed).totalLength = .ok l) cs ls ∧ ls.sum = Real.sqrt (1 / 2) := by
  intro m
  have hcross : ∀ e, CrossedEdge ground m e → e = (0, 1) ∨ e = (0, 2) := by
    rintro ⟨p, q⟩ ⟨hlt, ⟨f, hf, he⟩, a, b, ha, hb, ho⟩
    simp only [m, List.mem_singleton] at hf
    subst hf
    simp only [hasEdge, corner, Bool.and_eq_true, decide_eq_true_eq] at he hlt
    have : (p = 0 ∧ q = 1) ∨ (p = 0 ∧ q = 2) ∨ (p = 1 ∧ q = 2) := by omega
    rcases this with ⟨rfl, rfl⟩ | ⟨rfl, rfl⟩ | ⟨rfl, rfl⟩
    · exact Or.inl rfl
    · exact Or.inr rfl
    · simp only [m, List.getElem?_cons_succ, List.getElem?_cons_zero, Option.some.injEq] at ha hb
      subst ha hb
      norm_num [ground, height, inner3, vec3] at ho
  have hstr : Straddles ground m.v (0, 1, 2) :=
    ⟨⟨0, 0, 1⟩, ⟨1, 0, -1⟩, ⟨0, 1, -1⟩, rfl, rfl, rfl, by norm_num [ground, height, inner3, vec3], by
      norm_num [ground, height, inner3, vec3]⟩
  have hchord : Chord ground m (0, 1, 2) (⟨1 / 2, 0, 0⟩, ⟨0, 1 / 2, 0⟩) := by
    intro q
    rw [inFace_iff (m := m) (x := 0) (y := 1) (z := 2) rfl rfl rfl]
    refine chord_core (a := ⟨0, 0, 1⟩) (b := ⟨1, 0, -1⟩) (c := ⟨0, 1, -1⟩) ?_ ?_ ⟨1 / 2, by norm_num, by norm_num, ?_⟩ ?_
      ⟨1 / 2, by norm_num, by norm_num, ?_⟩ q
    · norm_num [ground, height, inner3, vec3]
    · norm_num [onPlane_iff, ground, height, inner3, vec3]
    · ext <;> norm_num [along, vec3]
    · norm_num [onPlane_iff, ground, height, inner3, vec3]
    · ext <;> norm_num [along, vec3]
  obtain ⟨cs, ls, ds, h1, h2, h3, h4⟩ := C127_length .py3 pk ko ground m (by
      intro f hf
      simp only [m, List.mem_singleton] at hf ⊢
      subst hf; simp) (by
      intro f hf
      simp only [m, List.mem_singleton] at hf
      subst hf; simp [ProperFace]) (by
      intro p hp
      simp only [m, List.mem_cons, List.not_mem_nil, or_false] at hp
      rcases hp with rfl | rfl | rfl <;> norm_num [onPlane_iff, ground, height, inner3, vec3]) (by
      intro u v
      exact (List.length_filter_le _ _).trans (by simp [m])) (by simp [m]) (Or.inr (by
      have off : ∀ q, CrossPoint ground m (0, 1) q → CrossPoint ground m (0, 2) q → False := by
        rintro q ⟨a, b, ha, hb, hq, s, s0, s1, rfl⟩ ⟨a', b', ha', hb', hq', t, t0, t1, e⟩
        simp only [m, List.getElem?_cons_succ, List.getElem?_cons_zero, Option.some.injEq] at ha hb ha' hb'
        subst ha hb ha' hb'
        rw [onPlane_iff] at hq
        simp only [V3.ext_iff, along, vec3] at e
        simp only [ground, height, inner3, along, vec3] at hq
        norm_num at e hq
        linarith
      intro e e' q c c' h h'
      rcases hcross e c with rfl | rfl <;> rcases hcross e' c' with rfl | rfl
      · rfl
      · exact (off q h h').elim
      · exact (off q h' h).elim
      · rfl))
  refine ⟨cs, ls, h1, h2, ?_⟩
  have hfil : (m.f.filter fun f => open Classical in decide (Straddles ground m.v f)) = [(0, 1, 2)] := by
    simp [m, List.filter_cons] at hstr ⊢
    exact hstr
  rw [hfil] at h3
  cases h3 with
  | cons k1 k2 =>
    cases k2
    rw [h4, List.sum_cons, List.sum_nil, add_zero, C127_length_unique ground m _ _ _ k1 ⟨_, _, hchord, rfl⟩]
    unfold dist3 len3 vec3
    norm_num

end Blmath.Props
