import Verif.Proofs.PlaneMemory
import Verif.Props.Plane
import Verif.Props.Box

/-!
Property C95: planes and boxes that share memory with arrays and with each other.
-/

namespace Blmath.Props
open Blmath.Geometry Blmath.Geometry.PMem Blmath.Spec

variable {α : Type} [Num α]
set_option linter.unusedSectionVars false

namespace PM


/-- a program before its first command -/
def start (α : Type) : World α := ⟨[], [], [], []⟩

/-- what a plane looks like -/
def look (w : World α) (p : ℕ) : Option (Plane α) := w.planes[p]?.map (PlaneObj.view w.heap)

/-- what a box looks like -/
def lookBox (w : World α) (b : ℕ) : Option (Box α) := w.boxes[b]?.map (BoxObj.view w.heap)

/-- the entries of an array -/
def entries (w : World α) (k : ℕ) : Option (V3 α) := w.arrs[k]?.map (cell w.heap)

/-- the numbers in an argument -/
def given (w : World α) : CArg α → Option (V3 α)
  | .arr k => entries w k
  | .data v => some v

/-- the worlds a program can get to -/
def Reached (w : World α) : Prop := ∃ cs, w = (start α).run cs

/-- an assignment into an array -/
def IsWrite : Cmd α → Prop
  | .write .. => True
  | _ => False

theorem run_ok {w : World α} (hw : w.Ok) (cs : List (Cmd α)) : (w.run cs).Ok := by
  induction cs generalizing w with
  | nil => exact hw
  | cons c cs ih => exact ih (step_ok hw c)

theorem Reached.ok {w : World α} (h : Reached w) : w.Ok := by
  obtain ⟨cs, rfl⟩ := h
  exact run_ok ⟨by simp [start], by simp [start], by simp [start], by simp [start], by simp [start]⟩ cs

theorem Reached.run {w : World α} (h : Reached w) (cs : List (Cmd α)) : Reached (w.run cs) := by
  obtain ⟨ds, rfl⟩ := h
  exact ⟨ds ++ cs, by simp [World.run, List.foldl_append]⟩

theorem given_eq (w : World α) (a : CArg α) : given w a = w.value a := by cases a <;> rfl

theorem grows_look {w w' : World α} (hw : w.Ok) (h : Grows w w') :
    (∀ p pl, look w p = some pl → look w' p = some pl) ∧ (∀ b x, lookBox w b = some x → lookBox w' b = some x) ∧
    (∀ k v, entries w k = some v → entries w' k = some v) := by
  obtain ⟨⟨t, ht⟩, ⟨ta, ha⟩, ⟨tp, hp⟩, ⟨tb, hb⟩⟩ := h
  have pre : ∀ {β : Type} {l m : List β} {i : ℕ} {x : β}, l[i]? = some x → (l ++ m)[i]? = some x := by
    intro β l m i x h
    rw [List.getElem?_append_left (List.getElem?_eq_some_iff.mp h).1, h]
  refine ⟨?_, ?_, ?_⟩
  · intro p pl h
    obtain ⟨o, h1, rfl⟩ := Option.map_eq_some_iff.mp h
    have hm := List.mem_of_getElem? h1
    rw [look, hp, pre h1]
    simp [PlaneObj.view, ht, cell_append (hw.points o hm), cell_append (hw.normals o hm)]
  · intro p pl h
    obtain ⟨o, h1, rfl⟩ := Option.map_eq_some_iff.mp h
    have hm := hw.boxes o (List.mem_of_getElem? h1)
    rw [lookBox, hb, pre h1]
    simp [BoxObj.view, ht, cell_append hm.1, cell_append hm.2]
  · intro p pl h
    obtain ⟨o, h1, rfl⟩ := Option.map_eq_some_iff.mp h
    have hm := hw.arrs o (List.mem_of_getElem? h1)
    rw [entries, ha, pre h1]
    simp [ht, cell_append hm]

end PM
open PM

/-- C95.  Apart from assignments into arrays nothing a program does changes an array, a plane or a box it has: planes and boxes
have no mutators. -/
theorem C95_frame {w : World α} (hw : Reached w) (c : Cmd α) (hc : ¬ IsWrite c) :
    (∀ p pl, look w p = some pl → look (w.step c).1 p = some pl) ∧ (∀ b x, lookBox w b = some x → lookBox (w.step c).1 b = some x) ∧
    (∀ k v, entries w k = some v → entries (w.step c).1 k = some v) := by
  rcases grows w c with ⟨k, i, x, rfl⟩ | h
  · exact absurd trivial hc
  · exact grows_look hw.ok h

namespace PM

/-- the outcome of making a plane -/
def MakesLike (w : World α) (c : Cmd α) (r : PyM (Plane α)) : Prop :=
  (∀ pl, r = .ok pl → (w.step c).2 = none ∧ look (w.step c).1 w.planes.length = some pl) ∧
  (∀ e, r = .error e → w.step c = (w, some e))

theorem addPlane_like {w : World α} (hw : w.Ok) {c : Cmd α} {hc} {r} (h : MakesPlane w c hc r) :
    (∀ pl, r = .ok pl → (w.addPlane hc r).2 = none ∧ look (w.addPlane hc r).1 w.planes.length = some pl) ∧
    (∀ e, r = .error e → w.addPlane hc r = (w, some e)) := by
  refine ⟨?_, ?_⟩
  · intro pl hr
    obtain ⟨⟨n, h1⟩, h2⟩ := h.made hw hr
    subst hr
    refine ⟨rfl, ?_⟩
    have hr0 : cell hc.1 hc.2 = pl.r0 := by
      unfold Plane.mk' at h1
      split at h1
      · cases h1
      · cases h1; rfl
    simp [look, World.addPlane, PlaneObj.view, cell_append h2, cell_last, hr0]
  · rintro e rfl
    rfl

end PM

/-- C95.  The constructors make what C21 and C22 say, from what the arguments hold at the moment; the results of
`canonical_point`, `project_point` and `center_point` are new arrays with what C22, C24 and C33 say. -/
theorem C95_results {w : World α} (hw : Reached w) :
    (∀ a b p n, given w a = some p → given w b = some n → MakesLike w (.plane a b) (Plane.mk' p n)) ∧
    (∀ a b c p q r, given w a = some p → given w b = some q → given w c = some r →
      MakesLike w (.fromPoints a b c) (fromPointsChecked p q r) ∧
      MakesLike w (.fromPointsAndVector a b c) (fromPointsAndVectorChecked p q r)) ∧
    (∀ p pl, look w p = some pl → MakesLike w (.flipped p) pl.flipped ∧
      entries (w.step (.referencePoint p)).1 w.arrs.length = some pl.r0 ∧
      entries (w.step (.normal p)).1 w.arrs.length = some pl.n ∧
      entries (w.step (.canonicalPoint p)).1 w.arrs.length = some pl.canonicalPoint ∧
      ∀ k x, entries w k = some x → entries (w.step (.projectPoint p k)).1 w.arrs.length = some (pl.projectPoint x)) ∧
    (∀ a b u v, given w a = some u → given w b = some v →
      (∀ x, Box.mk' u.toList v.toList .float = .ok x →
        (w.step (.box a b)).2 = none ∧ lookBox (w.step (.box a b)).1 w.boxes.length = some x) ∧
      (∀ e, Box.mk' u.toList v.toList .float = .error e → w.step (.box a b) = (w, some e))) ∧
    (∀ b x, lookBox w b = some x → entries (w.step (.origin b)).1 w.arrs.length = some x.origin ∧
      entries (w.step (.shape b)).1 w.arrs.length = some x.shape ∧
      entries (w.step (.centerPoint b)).1 w.arrs.length = some x.centerPoint) := by
  have hk := hw.ok
  simp only [given_eq]
  refine ⟨?_, ?_, ?_, ?_, ?_⟩
  · intro a b p n ha hb
    have := addPlane_like hk (.plane (placed ha) hb)
    have e : w.step (.plane a b) = w.addPlane (w.place a) (Plane.mk' p n) := by simp only [World.step, ha, hb]
    rw [MakesLike, e]
    exact this
  · intro a b c p q r ha hb hc
    constructor
    · have := addPlane_like hk (.fromPoints (placed ha) hb hc)
      have e : w.step (.fromPoints a b c) = w.addPlane (w.place a) (fromPointsChecked p q r) := by
        simp only [World.step, ha, hb, hc]
      rw [MakesLike, e]
      exact this
    · have := addPlane_like hk (.fromPointsAndVector (placed ha) hb hc)
      have e : w.step (.fromPointsAndVector a b c) = w.addPlane (w.place a) (fromPointsAndVectorChecked p q r) := by
        simp only [World.step, ha, hb, hc]
      rw [MakesLike, e]
      exact this
  · intro p pl h
    obtain ⟨o, h1, rfl⟩ := Option.map_eq_some_iff.mp h
    refine ⟨?_, ?_, ?_, ?_, ?_⟩
    · have := addPlane_like hk (.flipped h1)
      have e : w.step (.flipped p) = w.addPlane (w.heap, o.r0) (o.view w.heap).flipped := by simp only [World.step, h1]
      rw [MakesLike, e]
      exact this
    · simp [World.step, h1, entries, World.addName, PlaneObj.view]
    · simp [World.step, h1, entries, World.addName, PlaneObj.view]
    · simp [World.step, h1, entries, World.addArray, cell_last]
    · intro k x hx
      obtain ⟨c, h2, rfl⟩ := Option.map_eq_some_iff.mp hx
      simp [World.step, h1, h2, entries, World.addArray, cell_last]
  · intro a b u v ha hb
    have e : w.step (.box a b) = w.addBox a b (Box.mk' u.toList v.toList .float) := by simp only [World.step, ha, hb]
    rw [e]
    refine ⟨?_, ?_⟩
    · intro x hx
      obtain ⟨t, c, d, h1, h2, h3, h4⟩ := addBox_eq ha hb x
      obtain ⟨h5, h6⟩ := h4 hk
      rw [hx, h1]
      refine ⟨rfl, ?_⟩
      have hx' : (⟨u, v, .float⟩ : Box α) = x := by
        simp only [Box.mk', bind_eq_ok] at hx
        obtain ⟨o, ho, s, hs, hx⟩ := hx
        obtain rfl := PMem.asNumeric3_ok ho
        obtain rfl := PMem.asNumeric3_ok hs
        split at hx
        · cases hx
        · cases hx; rfl
      simp [lookBox, BoxObj.view, h5, h6, hx']
    · intro e he
      rw [he]; rfl
  · intro b x h
    obtain ⟨o, h1, rfl⟩ := Option.map_eq_some_iff.mp h
    refine ⟨?_, ?_, ?_⟩
    · simp [World.step, h1, entries, World.addName, BoxObj.view]
    · simp [World.step, h1, entries, World.addName, BoxObj.view]
    · simp [World.step, h1, entries, World.addArray, cell_last]

/-! ### Sharing -/

namespace PM

/-- the objects named before keep their arrays -/
theorem run_names (w : World α) (cs : List (Cmd α)) :
    (∀ (k c : ℕ), w.arrs[k]? = some c → (w.run cs).arrs[k]? = some c) ∧ (∀ (p : ℕ) o, w.planes[p]? = some o → (w.run cs).planes[p]? = some o) ∧
    (∀ (b : ℕ) o, w.boxes[b]? = some o → (w.run cs).boxes[b]? = some o) := by
  have pre : ∀ {β : Type} {l m : List β} {i : ℕ} {x : β}, l[i]? = some x → (l ++ m)[i]? = some x := by
    intro β l m i x h
    rw [List.getElem?_append_left (List.getElem?_eq_some_iff.mp h).1, h]
  induction cs generalizing w with
  | nil => exact ⟨fun _ _ h => h, fun _ _ h => h, fun _ _ h => h⟩
  | cons c cs ih =>
    obtain ⟨i1, i2, i3⟩ := ih (w.step c).1
    obtain ⟨⟨t1, h1⟩, ⟨t2, h2⟩, ⟨t3, h3⟩, _⟩ := names w c
    exact ⟨fun k c h => i1 k c (by rw [h1]; exact pre h), fun k c h => i2 k c (by rw [h2]; exact pre h),
      fun k c h => i3 k c (by rw [h3]; exact pre h)⟩

/-- the array `k` is the point of the plane `p`, for good -/
def PointIs (w : World α) (p k : ℕ) : Prop :=
  ∀ cs, ∃ pl, look (w.run cs) p = some pl ∧ entries (w.run cs) k = some pl.r0

theorem pointIs {w : World α} {p k : ℕ} {o : PlaneObj} (hp : w.planes[p]? = some o) (hk : w.arrs[k]? = some o.r0) : PointIs w p k := by
  intro cs
  obtain ⟨h1, h2, _⟩ := run_names w cs
  exact ⟨_, by rw [look, h2 _ _ hp]; rfl, by rw [entries, h1 _ _ hk]; rfl⟩

/-- the command makes a plane whose point is given by the array `k` -/
def FirstIs (k : ℕ) : Cmd α → Prop
  | .plane (.arr j) _ | .fromPoints (.arr j) _ _ | .fromPointsAndVector (.arr j) _ _ => j = k
  | _ => False

/-- the command makes a plane from a list -/
def FirstIsData : Cmd α → Prop
  | .plane (.data _) _ | .fromPoints (.data _) _ _ | .fromPointsAndVector (.data _) _ _ => True
  | _ => False

theorem plane_made {w : World α} {c : Cmd α} (hl : (w.step c).1.planes.length = w.planes.length + 1) :
    ∃ hc pl r, MakesPlane w c hc r ∧ r = .ok pl ∧ w.step c = w.addPlane hc (.ok pl) := by
  have h := effect w c
  generalize w.step c = r at h hl ⊢
  cases h with
  | nothing => simp at hl
  | write _ _ => simp at hl
  | writeErr _ _ => simp at hl
  | array h => simp [World.addArray] at hl
  | name h => simp [World.addName] at hl
  | @box o s u v ho hs =>
    cases hb : Box.mk' u.toList v.toList .float with
    | error e => rw [hb] at hl; simp [World.addBox] at hl
    | ok b =>
      obtain ⟨t, c, d, h1, _⟩ := addBox_eq ho hs b
      rw [hb, h1] at hl
      simp at hl
  | @plane _ hc r h =>
    cases r with
    | error e => simp [World.addPlane] at hl
    | ok pl => exact ⟨hc, pl, _, h, rfl, rfl⟩

end PM

/-- C95.  A plane made from an array has that array for its point: after anything the program may do, whatever is assigned to the
array, they hold the same.  So it is with `reference_point`; and a plane and its flipped one have one point between them. -/
theorem C95_shared (w : World α) :
    (∀ c k, FirstIs k c → (w.step c).1.planes.length = w.planes.length + 1 → PointIs (w.step c).1 w.planes.length k) ∧
    (∀ p pl, look w p = some pl → PointIs (w.step (.referencePoint p)).1 p w.arrs.length) ∧
    (∀ p, (w.step (.flipped p)).1.planes.length = w.planes.length + 1 → ∀ cs, ∃ pl pl',
      look ((w.step (.flipped p)).1.run cs) p = some pl ∧
      look ((w.step (.flipped p)).1.run cs) w.planes.length = some pl' ∧ pl'.r0 = pl.r0) := by
  refine ⟨?_, ?_, ?_⟩
  · intro c k hf hl
    obtain ⟨hc, pl, r, h, hr, e⟩ := plane_made hl
    have hk : w.arrs[k]? = some hc.2 := by
      have args : ∀ {b v hc}, Placed w b v hc → b = .arr k → w.arrs[k]? = some hc.2 := by
        intro b v hc h hb
        cases h with
        | arr h => cases hb; exact h
        | data v => cases hb
      cases h with
      | @plane a _ _ _ _ ha _ =>
        cases a with
        | arr j => cases hf; exact args ha rfl
        | data v => exact hf.elim
      | @fromPoints a _ _ _ _ _ _ ha _ _ =>
        cases a with
        | arr j => cases hf; exact args ha rfl
        | data v => exact hf.elim
      | @fromPointsAndVector a _ _ _ _ _ _ ha _ _ =>
        cases a with
        | arr j => cases hf; exact args ha rfl
        | data v => exact hf.elim
      | flipped h => exact hf.elim
    rw [e]
    exact pointIs (o := ⟨hc.2, hc.1.length⟩) (by simp [World.addPlane]) hk
  · intro p pl h
    obtain ⟨o, h1, rfl⟩ := Option.map_eq_some_iff.mp h
    have e : w.step (.referencePoint p) = w.addName o.r0 := by simp only [World.step, h1]
    rw [e]
    exact pointIs (o := o) h1 (by simp [World.addName])
  · intro p hl cs
    obtain ⟨hc, pl, r, h, hr, e⟩ := plane_made hl
    cases h with
    | @flipped _ o h =>
      rw [e]
      obtain ⟨_, h2, _⟩ := run_names (w.addPlane (w.heap, o.r0) (.ok pl)).1 cs
      have hp : (w.addPlane (w.heap, o.r0) (.ok pl)).1.planes[p]? = some o := by
        simp only [World.addPlane]
        rw [List.getElem?_append_left (List.getElem?_eq_some_iff.mp h).1, h]
      refine ⟨o.view _, PlaneObj.view _ ⟨o.r0, w.heap.length⟩, by rw [look, h2 _ _ hp]; rfl,
        by rw [look, h2 w.planes.length ⟨o.r0, w.heap.length⟩ (by simp [World.addPlane])]; rfl, rfl⟩

/-- C95.  An assignment changes an entry of the array, of everything that shares the array, and of nothing else. -/
theorem C95_write {w : World α} (hw : Reached w) (k i : ℕ) (x : α) (c : ℕ) (hk : w.arrs[k]? = some c) :
    (3 ≤ i → w.step (.write k i x) = (w, some .IndexError)) ∧
    (i < 3 → ∃ old new, entries w k = some old ∧ entries (w.step (.write k i x)).1 k = some new ∧ (w.step (.write k i x)).2 = none ∧
      new.toList = old.toList.set i x ∧
      (∀ p o, w.planes[p]? = some o → look (w.step (.write k i x)).1 p =
        some ⟨if o.r0 = c then new else cell w.heap o.r0, if o.n = c then new else cell w.heap o.n⟩) ∧
      (∀ b o, w.boxes[b]? = some o → lookBox (w.step (.write k i x)).1 b =
        some ⟨if o.origin = c then new else cell w.heap o.origin, if o.shape = c then new else cell w.heap o.shape, .float⟩) ∧
      (∀ j d, w.arrs[j]? = some d → entries (w.step (.write k i x)).1 j = some (if d = c then new else cell w.heap d))) := by
  have hc := hw.ok.arrs c (List.mem_of_getElem? hk)
  constructor
  · intro h3
    obtain ⟨j, rfl⟩ := Nat.exists_eq_add_of_le' h3
    simp [World.step, hk, World.write, setEntry]
  · intro h3
    obtain ⟨v, hv, hl⟩ : ∃ v, setEntry (cell w.heap c) i x = .ok v ∧ v.toList = (cell w.heap c).toList.set i x := by
      match i, h3 with
      | 0, _ => exact ⟨_, rfl, rfl⟩
      | 1, _ => exact ⟨_, rfl, rfl⟩
      | 2, _ => exact ⟨_, rfl, rfl⟩
    have e : w.step (.write k i x) = ({ w with heap := w.heap.set c v }, none) := by simp [World.step, hk, World.write, hv]
    rw [e]
    refine ⟨_, v, by rw [entries, hk]; rfl, by simp [entries, hk, cell_set hc], rfl, hl, ?_, ?_, ?_⟩
    · intro p o h
      simp [look, h, PlaneObj.view, cell_set hc]
    · intro p o h
      simp [lookBox, h, BoxObj.view, cell_set hc]
    · intro p o h
      simp [entries, h, cell_set hc]

namespace PM

/-- the plane `p` has its arrays to itself -/
structure Private (w : World α) (p : ℕ) (o : PlaneObj) : Prop where
  at_ : w.planes[p]? = some o
  arrs : o.r0 ∉ w.arrs ∧ o.n ∉ w.arrs
  planes : ∀ q o', w.planes[q]? = some o' → q ≠ p → o'.r0 ≠ o.r0 ∧ o'.r0 ≠ o.n ∧ o'.n ≠ o.r0 ∧ o'.n ≠ o.n
  boxes : ∀ b ∈ w.boxes, b.origin ≠ o.r0 ∧ b.origin ≠ o.n ∧ b.shape ≠ o.r0 ∧ b.shape ≠ o.n

/-- the command hands out an array of the plane `p`, or makes another plane with its point -/
def Exposes (p : ℕ) : Cmd α → Prop
  | .referencePoint q | .normal q | .flipped q => q = p
  | _ => False

theorem known_ne {w : World α} {p : ℕ} {o : PlaneObj} (h : Private w p o) {c : ℕ} (hc : c ∈ w.arrs) : c ≠ o.r0 ∧ c ≠ o.n :=
  ⟨fun e => h.arrs.1 (e ▸ hc), fun e => h.arrs.2 (e ▸ hc)⟩

theorem private_step {w : World α} (hw : w.Ok) {p : ℕ} {o : PlaneObj} (h : Private w p o) (c : Cmd α) (hc : ¬ Exposes p c) :
    Private (w.step c).1 p o ∧ o.view (w.step c).1.heap = o.view w.heap := by
  have hm := List.mem_of_getElem? h.at_
  have hr := hw.points o hm
  have hn := hw.normals o hm
  have he := effect w c
  generalize w.step c = r at he ⊢
  cases he with
  | nothing => exact ⟨h, rfl⟩
  | writeErr _ _ => exact ⟨h, rfl⟩
  | @write k i x d v hk hv =>
    have hd := known_ne h (List.mem_of_getElem? hk)
    refine ⟨⟨h.at_, h.arrs, h.planes, h.boxes⟩, ?_⟩
    have hl := hw.arrs d (List.mem_of_getElem? hk)
    simp [PlaneObj.view, cell_set hl, hd.1.symm, hd.2.symm]
  | @array _ v _ =>
    refine ⟨⟨h.at_, ?_, h.planes, h.boxes⟩, ?_⟩
    · simp only [World.addArray, List.mem_append, List.mem_singleton, not_or]
      exact ⟨⟨h.arrs.1, by omega⟩, h.arrs.2, by omega⟩
    · simp [World.addArray, PlaneObj.view, cell_append hr, cell_append hn]
  | @name _ d hd =>
    have : d ≠ o.r0 ∧ d ≠ o.n := by
      cases hd with
      | @referencePoint q o' hq => exact ⟨(h.planes q o' hq hc).1, (h.planes q o' hq hc).2.1⟩
      | @normal q o' hq => exact ⟨(h.planes q o' hq hc).2.2.1, (h.planes q o' hq hc).2.2.2⟩
      | @origin q o' hq => exact ⟨(h.boxes o' (List.mem_of_getElem? hq)).1, (h.boxes o' (List.mem_of_getElem? hq)).2.1⟩
      | @shape q o' hq => exact ⟨(h.boxes o' (List.mem_of_getElem? hq)).2.2.1, (h.boxes o' (List.mem_of_getElem? hq)).2.2.2⟩
    refine ⟨⟨h.at_, ?_, h.planes, h.boxes⟩, rfl⟩
    simp only [World.addName, List.mem_append, List.mem_singleton, not_or]
    exact ⟨⟨h.arrs.1, this.1.symm⟩, h.arrs.2, this.2.symm⟩
  | @plane _ hc' r hp =>
    cases r with
    | error e => exact ⟨h, rfl⟩
    | ok pl =>
      have hne : hc'.2 ≠ o.r0 ∧ hc'.2 ≠ o.n := by
        have args : ∀ {b v}, Placed w b v hc' → hc'.2 ≠ o.r0 ∧ hc'.2 ≠ o.n := by
          intro b v hb
          rcases hb.cases' with ⟨_, h2, _⟩ | ⟨_, h2⟩
          · exact known_ne h h2
          · rw [h2]; exact ⟨by omega, by omega⟩
        generalize (Except.ok pl : PyM (Plane α)) = r at hp
        cases hp with
        | plane ha _ => exact args ha
        | fromPoints ha _ _ => exact args ha
        | fromPointsAndVector ha _ _ => exact args ha
        | @flipped q o' hq => exact ⟨(h.planes q o' hq hc).1, (h.planes q o' hq hc).2.1⟩
      have hpre : ∃ t, hc'.1 = w.heap ++ t := by
        rcases hp.placed with ⟨h1, _⟩ | ⟨v, h1, _⟩
        · exact ⟨[], by simp [h1]⟩
        · exact ⟨[v], h1⟩
      obtain ⟨t, ht⟩ := hpre
      have hpl : p < w.planes.length := (List.getElem?_eq_some_iff.mp h.at_).1
      refine ⟨⟨?_, h.arrs, ?_, h.boxes⟩, ?_⟩
      · simp only [World.addPlane]
        rw [List.getElem?_append_left hpl]
        exact h.at_
      · intro q o' hq hqp
        simp only [World.addPlane] at hq
        by_cases hql : q < w.planes.length
        · rw [List.getElem?_append_left hql] at hq
          exact h.planes q o' hq hqp
        · rw [List.getElem?_append_right (by omega)] at hq
          obtain ⟨_, rfl⟩ := List.getElem?_eq_some_iff.mp hq
          have : w.heap.length ≤ hc'.1.length := by rw [ht]; simp
          simp only [List.getElem_singleton]
          exact ⟨hne.1, hne.2, by omega, by omega⟩
      · simp [World.addPlane, PlaneObj.view, ht, cell_append hr, cell_append hn]
  | @box oa sa u v ho hs =>
    cases hb : Box.mk' u.toList v.toList .float with
    | error e => exact ⟨h, rfl⟩
    | ok b =>
      obtain ⟨t, c, d, h1, h2, h3, _⟩ := addBox_eq ho hs b
      rw [h1]
      have hcn : c ≠ o.r0 ∧ c ≠ o.n := by
        rcases h2 with h2 | h2
        · exact known_ne h h2
        · exact ⟨by omega, by omega⟩
      have hdn : d ≠ o.r0 ∧ d ≠ o.n := by
        rcases h3 with h3 | h3
        · exact known_ne h h3
        · exact ⟨by omega, by omega⟩
      refine ⟨⟨h.at_, h.arrs, h.planes, ?_⟩, ?_⟩
      · intro x hx
        simp only [List.mem_append, List.mem_singleton] at hx
        rcases hx with hx | rfl
        · exact h.boxes x hx
        · exact ⟨hcn.1, hcn.2, hdn.1, hdn.2⟩
      · simp [PlaneObj.view, cell_append hr, cell_append hn]

end PM

/-- C95.  A plane made from lists is its own: as long as its `reference_point` and its `normal` are not read and it is not flipped,
nothing changes it. -/
theorem C95_private {w : World α} (hw : Reached w) (c : Cmd α) (hc : FirstIsData c)
    (hl : (w.step c).1.planes.length = w.planes.length + 1) (cs : List (Cmd α)) (hcs : ∀ d ∈ cs, ¬ Exposes w.planes.length d) :
    look ((w.step c).1.run cs) w.planes.length = look (w.step c).1 w.planes.length := by
  have hk := hw.ok
  have hk' := step_ok hk c
  obtain ⟨hc', pl, r, h, hr, e⟩ := plane_made hl
  have hpriv : Private (w.step c).1 w.planes.length ⟨hc'.2, hc'.1.length⟩ := by
    have hd : ∃ v, hc'.1 = w.heap ++ [v] ∧ hc'.2 = w.heap.length := by
      have args : ∀ {b v}, Placed w b v hc' → (∃ u, b = .data u) → ∃ v, hc'.1 = w.heap ++ [v] ∧ hc'.2 = w.heap.length := by
        rintro b v hb ⟨u, rfl⟩
        cases hb
        exact ⟨_, rfl, rfl⟩
      cases h with
      | @plane a _ _ _ _ ha _ =>
        cases a with
        | arr j => exact hc.elim
        | data v => exact args ha ⟨v, rfl⟩
      | @fromPoints a _ _ _ _ _ _ ha _ _ =>
        cases a with
        | arr j => exact hc.elim
        | data v => exact args ha ⟨v, rfl⟩
      | @fromPointsAndVector a _ _ _ _ _ _ ha _ _ =>
        cases a with
        | arr j => exact hc.elim
        | data v => exact args ha ⟨v, rfl⟩
      | flipped h => exact hc.elim
    obtain ⟨v, h1, h2⟩ := hd
    have hlen : hc'.1.length = w.heap.length + 1 := by rw [h1]; simp
    rw [e]
    refine ⟨by simp [World.addPlane], ⟨?_, ?_⟩, ?_, ?_⟩
    · intro hm
      have := hk.arrs _ hm
      simp only at this
      omega
    · intro hm
      have := hk.arrs _ hm
      simp only at this
      omega
    · intro q o' hq hqp
      simp only [World.addPlane] at hq
      by_cases hql : q < w.planes.length
      · rw [List.getElem?_append_left hql] at hq
        have h3 := hk.points _ (List.mem_of_getElem? hq)
        have h4 := hk.normals _ (List.mem_of_getElem? hq)
        simp only
        refine ⟨?_, ?_, ?_, ?_⟩ <;> omega
      · rw [List.getElem?_append_right (by omega)] at hq
        obtain ⟨h, _⟩ := List.getElem?_eq_some_iff.mp hq
        simp at h
        omega
    · intro b hb
      have := hk.boxes b hb
      simp only
      refine ⟨?_, ?_, ?_, ?_⟩ <;> omega
  clear hl
  generalize hw' : (w.step c).1 = w' at hk' hpriv ⊢
  generalize w.planes.length = p at *
  generalize (⟨hc'.2, hc'.1.length⟩ : PlaneObj) = o at hpriv
  clear hw' e h
  induction cs generalizing w' with
  | nil => rfl
  | cons d ds ih =>
    obtain ⟨h1, h2⟩ := private_step hk' hpriv d (hcs d (by simp))
    show look ((w'.step d).1.run ds) p = _
    rw [ih (w'.step d).1 (step_ok hk' d) (fun d hd => hcs d (List.mem_cons_of_mem _ hd)) h1, look, look, hpriv.at_, h1.at_]
    simp [h2]

/-! ### Unit normals -/

namespace PM

/-- no assignment is into the normal of a plane -/
def Respectful : World α → List (Cmd α) → Prop
  | _, [] => True
  | w, c :: cs => (∀ k i x d, c = .write k i x → w.arrs[k]? = some d → ∀ o ∈ w.planes, o.n ≠ d) ∧ Respectful (w.step c).1 cs

/-- the command reads the normal of a plane -/
def ReadsNormal : Cmd α → Prop
  | .normal _ => True
  | _ => False

theorem unit_step {w : World ℝ} (hw : w.Ok) (hu : ∀ o ∈ w.planes, UnitNormal (o.view w.heap)) (c : Cmd ℝ)
    (hc : ∀ k i x d, c = .write k i x → w.arrs[k]? = some d → ∀ o ∈ w.planes, o.n ≠ d) :
    ∀ o ∈ (w.step c).1.planes, UnitNormal (o.view (w.step c).1.heap) := by
  have he := effect w c
  generalize w.step c = r at he ⊢
  have ext : ∀ o ∈ w.planes, ∀ t, UnitNormal (o.view (w.heap ++ t)) := by
    intro o ho t
    have := hu o ho
    unfold UnitNormal PlaneObj.view at *
    rw [cell_append (hw.normals o ho)]
    exact this
  cases he with
  | nothing => exact hu
  | writeErr _ _ => exact hu
  | @write k i x d v hk hv =>
    intro o ho
    have := hu o ho
    unfold UnitNormal PlaneObj.view at *
    simp only
    rw [cell_set (hw.arrs d (List.mem_of_getElem? hk)), if_neg (hc k i x d rfl hk o ho)]
    exact this
  | array _ => exact fun o ho => ext o ho _
  | name _ => exact hu
  | @plane _ hc' r hp =>
    cases r with
    | error e => exact hu
    | ok pl =>
      intro o ho
      obtain ⟨⟨n, h1⟩, h2⟩ := hp.made hw rfl
      have hpre : ∃ t, hc'.1 = w.heap ++ t := by
        rcases hp.placed with ⟨h1, _⟩ | ⟨v, h1, _⟩
        · exact ⟨[], by simp [h1]⟩
        · exact ⟨[v], h1⟩
      obtain ⟨t, ht⟩ := hpre
      simp only [World.addPlane, List.mem_append, List.mem_singleton] at ho ⊢
      rcases ho with ho | rfl
      · rw [ht, List.append_assoc]; exact ext o ho _
      · have := ((C21_construct _ _).1 pl h1).2.1
        unfold UnitNormal PlaneObj.view
        rw [cell_last]
        exact this
  | @box oa sa u v ho hs =>
    cases hb : Box.mk' u.toList v.toList .float with
    | error e => exact hu
    | ok b =>
      obtain ⟨t, c, d, h1, _⟩ := addBox_eq ho hs b
      rw [h1]
      exact fun o ho => ext o ho _

theorem unit_run {w : World ℝ} (hw : w.Ok) (hu : ∀ o ∈ w.planes, UnitNormal (o.view w.heap)) (cs : List (Cmd ℝ))
    (hc : Respectful w cs) : ∀ o ∈ (w.run cs).planes, UnitNormal (o.view (w.run cs).heap) := by
  induction cs generalizing w with
  | nil => exact hu
  | cons c cs ih => exact ih (step_ok hw c) (unit_step hw hu c hc.1) hc.2

/-- no one but the planes knows their normals -/
structure Hidden (w : World α) : Prop where
  arrs : ∀ o ∈ w.planes, o.n ∉ w.arrs
  points : ∀ o ∈ w.planes, ∀ o' ∈ w.planes, o'.r0 ≠ o.n
  boxes : ∀ o ∈ w.planes, ∀ b ∈ w.boxes, b.origin ≠ o.n ∧ b.shape ≠ o.n

theorem hidden_step {w : World α} (hw : w.Ok) (h : Hidden w) (c : Cmd α) (hc : ¬ ReadsNormal c) : Hidden (w.step c).1 := by
  have he := effect w c
  generalize w.step c = r at he ⊢
  cases he with
  | nothing => exact h
  | writeErr _ _ => exact h
  | write _ _ => exact ⟨h.arrs, h.points, h.boxes⟩
  | @array _ v _ =>
    refine ⟨?_, h.points, h.boxes⟩
    intro o ho
    have := hw.normals o ho
    simp only [World.addArray, List.mem_append, List.mem_singleton, not_or]
    exact ⟨h.arrs o ho, by omega⟩
  | @name _ d hd =>
    refine ⟨?_, h.points, h.boxes⟩
    intro o ho
    simp only [World.addName, List.mem_append, List.mem_singleton, not_or]
    refine ⟨h.arrs o ho, ?_⟩
    cases hd with
    | referencePoint hq => exact (h.points o ho _ (List.mem_of_getElem? hq)).symm
    | normal hq => exact absurd trivial hc
    | origin hq => exact (h.boxes o ho _ (List.mem_of_getElem? hq)).1.symm
    | shape hq => exact (h.boxes o ho _ (List.mem_of_getElem? hq)).2.symm
  | @plane _ hc' r hp =>
    cases r with
    | error e => exact h
    | ok pl =>
      have hlt := (hp.made hw rfl).2
      have hle : w.heap.length ≤ hc'.1.length ∧ ∀ o ∈ w.planes, hc'.2 ≠ o.n := by
        rcases hp.placed with ⟨h1, h2⟩ | ⟨v, h1, h2⟩
        · refine ⟨by rw [h1], fun o ho => ?_⟩
          rcases h2 with h2 | ⟨o', ho', h2⟩
          · exact fun e => h.arrs o ho (e ▸ h2)
          · rw [← h2]; exact h.points o ho o' ho'
        · refine ⟨by rw [h1]; simp, fun o ho => ?_⟩
          have := hw.normals o ho
          omega
      refine ⟨?_, ?_, ?_⟩
      · intro o ho hm
        simp only [World.addPlane, List.mem_append, List.mem_singleton] at ho hm
        rcases ho with ho | rfl
        · exact h.arrs o ho hm
        · have := hw.arrs _ hm
          simp only at this
          omega
      · intro o ho o' ho'
        simp only [World.addPlane, List.mem_append, List.mem_singleton] at ho ho'
        rcases ho with ho | rfl <;> rcases ho' with ho' | rfl
        · exact h.points o ho o' ho'
        · exact hle.2 o ho
        · have := hw.points o' ho'
          simp only
          omega
        · simp only
          omega
      · intro o ho b hb
        simp only [World.addPlane, List.mem_append, List.mem_singleton] at ho hb
        rcases ho with ho | rfl
        · exact h.boxes o ho b hb
        · have := hw.boxes b hb
          simp only
          omega
  | @box oa sa u v ho hs =>
    cases hb : Box.mk' u.toList v.toList .float with
    | error e => exact h
    | ok b =>
      obtain ⟨t, c, d, h1, h2, h3, _⟩ := addBox_eq ho hs b
      rw [h1]
      refine ⟨h.arrs, h.points, ?_⟩
      intro o ho x hx
      have hno := hw.normals o ho
      simp only [List.mem_append, List.mem_singleton] at hx
      rcases hx with hx | rfl
      · exact h.boxes o ho x hx
      · constructor
        · rcases h2 with h2 | h2
          · exact fun e => h.arrs o ho (by rw [← e]; exact h2)
          · simp only; omega
        · rcases h3 with h3 | h3
          · exact fun e => h.arrs o ho (by rw [← e]; exact h3)
          · simp only; omega

theorem hidden_respectful {w : World α} (hw : w.Ok) (h : Hidden w) (cs : List (Cmd α)) (hcs : ∀ c ∈ cs, ¬ ReadsNormal c) :
    Respectful w cs := by
  induction cs generalizing w with
  | nil => trivial
  | cons c cs ih =>
    refine ⟨?_, ih (step_ok hw c) (hidden_step hw h c (hcs c (by simp))) fun d hd => hcs d (List.mem_cons_of_mem _ hd)⟩
    intro k i x d _ hk o ho e
    exact h.arrs o ho (e ▸ List.mem_of_getElem? hk)

end PM

/-- C95.  Every plane a program has keeps a unit normal as long as nothing is assigned into an array that is the normal of a plane;
and a program that never reads `normal` cannot do that, whatever it assigns elsewhere. -/
theorem C95_unit (cs : List (Cmd ℝ)) :
    (Respectful (start ℝ) cs → ∀ p pl, look ((start ℝ).run cs) p = some pl → UnitNormal pl) ∧
    ((∀ c ∈ cs, ¬ ReadsNormal c) → Respectful (start ℝ) cs) := by
  have hk : (start ℝ).Ok := Reached.ok ⟨[], rfl⟩
  refine ⟨?_, hidden_respectful hk ⟨by simp [start], by simp [start], by simp [start]⟩ cs⟩
  intro h p pl hp
  obtain ⟨o, h1, rfl⟩ := Option.map_eq_some_iff.mp hp
  exact unit_run hk (by simp [start]) cs h o (List.mem_of_getElem? h1)

/-- C95.  Moving the point of a plane moves the plane along: the signed distance of every point changes by the same amount, the
way the point has gone along the normal. -/
theorem C95_moved (pl pl' : Plane ℝ) (hn : pl'.n = pl.n) (x : V3 ℝ) :
    pl'.signedDistance1 x = pl.signedDistance1 x - inner3 (vec3 pl.r0 pl'.r0) pl.n := by
  rw [signedDistance1_real, signedDistance1_real]
  simp only [height, inner3, vec3, hn]
  ring

/-- C95.  Witness: an assignment into the array read from `normal` breaks the plane; a point at height 1 is said to be at height 2. -/
theorem C95_normal_broken :
    ∃ pl, look ((start ℝ).run [.plane (.data ⟨0, 0, 0⟩) (.data ⟨0, 0, 1⟩), .normal 0, .write 0 2 2]) 0 = some pl ∧
      ¬ UnitNormal pl ∧ pl.signedDistance1 ⟨0, 0, 1⟩ = 2 ∧ dist3 ⟨0, 0, 1⟩ ⟨0, 0, 0⟩ = 1 ∧ OnPlane pl ⟨0, 0, 0⟩ := by
  have hmk : Plane.mk' (⟨0, 0, 0⟩ : V3 ℝ) ⟨0, 0, 1⟩ = .ok ⟨⟨0, 0, 0⟩, ⟨0, 0, 1⟩⟩ := by
    have h : ¬ Vx.almostZero (⟨0, 0, 1⟩ : V3 ℝ) Vx.defaultAtol = true := by
      rw [almostZero_real]
      simp
      norm_num
    unfold Plane.mk'
    rw [if_neg h, Vx.normalize3_real]
    simp [len3, scale3]
  refine ⟨⟨⟨0, 0, 0⟩, ⟨0, 0, 2⟩⟩, ?_, ?_, ?_, ?_, ?_⟩
  · simp [World.run, World.step, start, World.value, hmk, World.addPlane, World.place, World.addName, World.write, setEntry, look,
      PlaneObj.view, cell]
  · simp [UnitNormal, len3]
  · simp [signedDistance1_real, height, inner3, vec3]
  · simp [dist3, len3, vec3]
  · simp [OnPlane, inner3, vec3]

/-- C95.  Witness: a box keeps the array its shape was given by, and an assignment into it makes the volume negative; the
constructor would have raised. -/
theorem C95_box_negative :
    ∃ b, lookBox ((start ℝ).run [.array ⟨1, 1, 1⟩, .box (.data ⟨0, 0, 0⟩) (.arr 0), .write 0 1 (-1)]) 0 = some b ∧ b.volume = -1 ∧
      Box.mk' b.origin.toList b.shape.toList .float = .error .ValueError := by
  have hn : ∀ x : ℝ, (npIsNan x || npIsInf x) = false := by
    intro x
    simp [npIsNan, npIsInf, Num.eq]
  have hmk : Box.mk' (⟨0, 0, 0⟩ : V3 ℝ).toList (⟨1, 1, 1⟩ : V3 ℝ).toList .float = .ok ⟨⟨0, 0, 0⟩, ⟨1, 1, 1⟩, .float⟩ := by
    simp [Box.mk', V3.toList, asNumeric3, hn, -Bool.or_eq_true, -Bool.or_eq_false_iff]
  refine ⟨⟨⟨0, 0, 0⟩, ⟨1, -1, 1⟩, .float⟩, ?_, ?_, ?_⟩
  · simp [World.run, World.step, start, World.value, hmk, World.addBox, World.place, World.addArray, World.write, setEntry, lookBox,
      BoxObj.view, cell]
  · simp [Box.volume]
  · simp [Box.mk', V3.toList, asNumeric3, hn, raise, -Bool.or_eq_true, -Bool.or_eq_false_iff]
    simp

namespace PM

theorem addBox_names {w : World α} {o s : CArg α} {u v : V3 α} (ho : w.value o = some u) (hs : w.value s = some v) (b : Box α) :
    ∃ c d, (w.addBox o s (.ok b)).1.boxes = w.boxes ++ [⟨c, d⟩] ∧ (w.addBox o s (.ok b)).1.arrs = w.arrs ∧
      (∀ k, o = .arr k → w.arrs[k]? = some c) ∧ (∀ k, s = .arr k → w.arrs[k]? = some d) := by
  have arr : ∀ {a : CArg α} {u} (h : Heap α), w.value a = some u → ∀ k, a = .arr k →
      w.arrs[k]? = some (({ w with heap := h } : World α).place a).2 := by
    rintro a u h ha k rfl
    obtain ⟨c, h1, _⟩ := Option.map_eq_some_iff.mp ha
    simp [World.place, h1]
  exact ⟨_, _, rfl, rfl, arr _ ho, arr _ hs⟩

end PM

/-- C95.  A box made from arrays has those arrays for its origin and its shape, and `origin` and `shape` hand out the arrays
themselves. -/
theorem C95_box_shared (w : World α) :
    (∀ a s, (w.step (.box a s)).1.boxes.length = w.boxes.length + 1 → ∀ k cs,
      (a = .arr k → ∃ b v, lookBox ((w.step (.box a s)).1.run cs) w.boxes.length = some b ∧
        entries ((w.step (.box a s)).1.run cs) k = some v ∧ b.origin = v) ∧
      (s = .arr k → ∃ b v, lookBox ((w.step (.box a s)).1.run cs) w.boxes.length = some b ∧
        entries ((w.step (.box a s)).1.run cs) k = some v ∧ b.shape = v)) ∧
    (∀ b x cs, lookBox w b = some x →
      (∃ y v, lookBox ((w.step (.origin b)).1.run cs) b = some y ∧
        entries ((w.step (.origin b)).1.run cs) w.arrs.length = some v ∧ y.origin = v) ∧
      (∃ y v, lookBox ((w.step (.shape b)).1.run cs) b = some y ∧
        entries ((w.step (.shape b)).1.run cs) w.arrs.length = some v ∧ y.shape = v)) := by
  refine ⟨?_, ?_⟩
  · intro a s hl k cs
    obtain ⟨u, v, ha, hs⟩ : ∃ u v, w.value a = some u ∧ w.value s = some v := by
      simp only [World.step] at hl
      split at hl
      · exact ⟨_, _, by assumption, by assumption⟩
      · simp at hl
    have e : w.step (.box a s) = w.addBox a s (Box.mk' u.toList v.toList .float) := by simp only [World.step, ha, hs]
    rw [e] at hl ⊢
    cases hb : Box.mk' u.toList v.toList .float with
    | error e => rw [hb] at hl; simp [World.addBox] at hl
    | ok b =>
      obtain ⟨c, d, h1, h2, h3, h4⟩ := addBox_names ha hs b
      obtain ⟨i1, _, i3⟩ := run_names (w.addBox a s (.ok b)).1 cs
      have hbx := i3 w.boxes.length ⟨c, d⟩ (by rw [h1]; simp)
      refine ⟨?_, ?_⟩
      · intro hk
        exact ⟨BoxObj.view _ ⟨c, d⟩, cell _ c, by rw [lookBox, hbx]; rfl, by rw [entries, i1 k c (by rw [h2]; exact h3 k hk)]; rfl, rfl⟩
      · intro hk
        exact ⟨BoxObj.view _ ⟨c, d⟩, cell _ d, by rw [lookBox, hbx]; rfl, by rw [entries, i1 k d (by rw [h2]; exact h4 k hk)]; rfl, rfl⟩
  · intro b x cs h
    obtain ⟨o, h1, rfl⟩ := Option.map_eq_some_iff.mp h
    constructor
    · have e : w.step (.origin b) = w.addName o.origin := by simp only [World.step, h1]
      rw [e]
      obtain ⟨i1, _, i3⟩ := run_names (w.addName o.origin).1 cs
      exact ⟨o.view _, cell _ o.origin, by rw [lookBox, i3 b o h1]; rfl,
        by rw [entries, i1 w.arrs.length o.origin (by simp [World.addName])]; rfl, rfl⟩
    · have e : w.step (.shape b) = w.addName o.shape := by simp only [World.step, h1]
      rw [e]
      obtain ⟨i1, _, i3⟩ := run_names (w.addName o.shape).1 cs
      exact ⟨o.view _, cell _ o.shape, by rw [lookBox, i3 b o h1]; rfl,
        by rw [entries, i1 w.arrs.length o.shape (by simp [World.addName])]; rfl, rfl⟩

namespace PM

/-- the command computes a new array -/
def Computes : Cmd α → Prop
  | .canonicalPoint _ | .projectPoint _ _ | .centerPoint _ | .array _ => True
  | _ => False

end PM

/-- C95.  The results of `canonical_point`, `project_point` and `center_point` are new: assigning into one changes no plane, no box
and no other array. -/
theorem C95_fresh {w : World α} (hw : Reached w) (c : Cmd α) (hc : Computes c)
    (hl : (w.step c).1.arrs.length = w.arrs.length + 1) (i : ℕ) (x : α) :
    (∀ p pl, look w p = some pl → look ((w.step c).1.step (.write w.arrs.length i x)).1 p = some pl) ∧
    (∀ b y, lookBox w b = some y → lookBox ((w.step c).1.step (.write w.arrs.length i x)).1 b = some y) ∧
    (∀ k v, entries w k = some v → entries ((w.step c).1.step (.write w.arrs.length i x)).1 k = some v) := by
  have hk := hw.ok
  have he := effect w c
  generalize w.step c = r at he hl ⊢
  cases he with
  | @array _ v _ =>
    have hlen : w.heap.length < (w.heap ++ [v]).length := by simp
    have hlt : ∀ {d}, d < w.heap.length → ∀ {u},
        cell ((w.heap ++ [v]).set w.heap.length u) d = cell w.heap d := by
      intro d hd u
      rw [cell_set hlen, if_neg (by omega), cell_append hd]
    have e : ∃ h, (World.step (w.addArray v).1 (.write w.arrs.length i x)).1 = { (w.addArray v).1 with heap := h } ∧
        ∀ d, d < w.heap.length → cell h d = cell w.heap d := by
      simp only [World.step, World.addArray, World.write]
      simp only [List.getElem?_concat_length]
      cases setEntry (cell (w.heap ++ [v]) w.heap.length) i x with
      | error e => exact ⟨_, rfl, fun d hd => cell_append hd⟩
      | ok u => exact ⟨_, rfl, fun d hd => hlt hd⟩
    obtain ⟨h, e, hh⟩ := e
    rw [e]
    refine ⟨?_, ?_, ?_⟩
    · intro p pl hp
      obtain ⟨o, h1, rfl⟩ := Option.map_eq_some_iff.mp hp
      have hm := List.mem_of_getElem? h1
      simp [look, World.addArray, h1, PlaneObj.view, hh _ (hk.points o hm), hh _ (hk.normals o hm)]
    · intro p pl hp
      obtain ⟨o, h1, rfl⟩ := Option.map_eq_some_iff.mp hp
      have hm := hk.boxes o (List.mem_of_getElem? h1)
      simp [lookBox, World.addArray, h1, BoxObj.view, hh _ hm.1, hh _ hm.2]
    · intro p pl hp
      obtain ⟨o, h1, rfl⟩ := Option.map_eq_some_iff.mp hp
      have hm := hk.arrs o (List.mem_of_getElem? h1)
      simp only [entries, World.addArray]
      rw [List.getElem?_append_left (List.getElem?_eq_some_iff.mp h1).1, h1]
      simp [hh _ hm]
  | nothing => simp at hl
  | write _ _ => simp at hl
  | writeErr _ _ => simp at hl
  | @name _ d hd => cases hd <;> exact hc.elim
  | @plane _ hc' r hp => cases hp <;> exact hc.elim
  | box _ _ => exact hc.elim

/-- every coordinate is a finite number -/
def AllFinite (v : V3 α) : Prop := ∀ x ∈ v.toList, npIsNan x = false ∧ npIsInf x = false

/-- **C95.** The planes made from points are those of the geometry, of the numbers at the time of the call: coercing changes nothing, except
that entries which are not finite are refused with ValueError. -/
theorem C95_from_points (p q r : V3 α) :
    ((AllFinite p ∧ AllFinite q ∧ AllFinite r) → fromPointsChecked p q r = Plane.fromPoints p q r ∧
      fromPointsAndVectorChecked p q r = Plane.fromPointsAndVector p q r) ∧
    (¬ (AllFinite p ∧ AllFinite q ∧ AllFinite r) → fromPointsChecked p q r = .error .ValueError ∧
      fromPointsAndVectorChecked p q r = .error .ValueError) := by
  have good : ∀ v : V3 α, AllFinite v → asNumeric3 v.toList = .ok v := by
    intro v hv
    unfold asNumeric3
    rw [if_neg]
    · rfl
    · simp only [List.any_eq_true, Bool.or_eq_true, not_exists, not_and]
      intro x hx
      simp [hv x hx]
  have bad : ∀ v : V3 α, ¬ AllFinite v → asNumeric3 v.toList = .error .ValueError := by
    intro v hv
    unfold asNumeric3
    rw [if_pos]
    · unfold AllFinite at hv
      push Not at hv
      obtain ⟨x, hx, h⟩ := hv
      refine List.any_eq_true.mpr ⟨x, hx, ?_⟩
      cases hn : npIsNan x with
      | true => rfl
      | false => simpa using h hn
  constructor
  · rintro ⟨h1, h2, h3⟩
    simp [fromPointsChecked, fromPointsAndVectorChecked, good _ h1, good _ h2, good _ h3]
  · intro h
    unfold fromPointsChecked fromPointsAndVectorChecked
    by_cases h1 : AllFinite p
    · rw [good _ h1]
      by_cases h2 : AllFinite q
      · rw [good _ h2, bad r (fun h3 => h ⟨h1, h2, h3⟩)]
        exact ⟨rfl, rfl⟩
      · rw [bad _ h2]
        exact ⟨rfl, rfl⟩
    · rw [bad _ h1]
      exact ⟨rfl, rfl⟩

/-! ### The hypotheses are met -/

/-- finite coordinates, and a coordinate that is none -/
example : AllFinite (⟨1, 2, 3⟩ : V3 ℝ) ∧ ¬ AllFinite (⟨Fl.fin 1, Fl.nan, Fl.fin 0⟩ : V3 Fl) := by
  constructor
  · intro x _; exact ⟨by simp [npIsNan], by simp [npIsInf, npIsNan]⟩
  · intro h
    have := (h Fl.nan (by simp [V3.toList])).1
    simp [npIsNan] at this

/-- a program that makes a plane from an array, then assigns into the array -/
example : ∃ pl, look ((start ℝ).run [.array ⟨0, 0, 0⟩, .plane (.arr 0) (.data ⟨0, 0, 2⟩), .write 0 2 5]) 0 = some pl ∧
    pl.r0 = ⟨0, 0, 5⟩ ∧ UnitNormal pl := by
  have h : ¬ Vx.almostZero (⟨0, 0, 2⟩ : V3 ℝ) Vx.defaultAtol = true := by
    rw [almostZero_real]
    simp
    norm_num
  have hmk : Plane.mk' (⟨0, 0, 0⟩ : V3 ℝ) ⟨0, 0, 2⟩ = .ok ⟨⟨0, 0, 0⟩, ⟨0, 0, 1⟩⟩ := by
    unfold Plane.mk'
    rw [if_neg h, Vx.normalize3_real]
    simp [len3, scale3]
  refine ⟨⟨⟨0, 0, 5⟩, ⟨0, 0, 1⟩⟩, ?_, rfl, ?_⟩
  · simp [World.run, World.step, start, World.value, hmk, World.addPlane, World.addArray, World.place, World.write, setEntry, look,
      PlaneObj.view, cell]
  · simp [UnitNormal, len3]

/-- `FirstIs`, `FirstIsData`, and a history without `Exposes` or `ReadsNormal` that assigns -/
example : FirstIs 3 (.plane (.arr 3) (.data ⟨0, 0, 1⟩) : Cmd ℝ) ∧ FirstIsData (.plane (.data ⟨0, 0, 0⟩) (.arr 3) : Cmd ℝ) ∧
    (∀ d ∈ ([.array ⟨0, 0, 0⟩, .write 0 1 5, .canonicalPoint 0, .write 1 0 7] : List (Cmd ℝ)), ¬ Exposes 0 d ∧ ¬ ReadsNormal d) := by
  simp [FirstIs, FirstIsData, Exposes, ReadsNormal]

end Blmath.Props
