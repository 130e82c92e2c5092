import Verif.Model.PlaneMemory

/-!
Lemmas about the memory of planes and boxes.
-/

namespace Blmath.Geometry.PMem
variable {α : Type} [Num α]
set_option linter.unusedSectionVars false

theorem cell_append {h t : Heap α} {c : ℕ} (hc : c < h.length) : cell (h ++ t) c = cell h c := by
  rw [cell, List.getElem?_append_left hc]; rfl

theorem cell_last (h : Heap α) (v : V3 α) : cell (h ++ [v]) h.length = v := by
  rw [cell, List.getElem?_append_right le_rfl]; simp

theorem cell_set {h : Heap α} {c : ℕ} (hc : c < h.length) (v : V3 α) (d : ℕ) :
    cell (h.set c v) d = if d = c then v else cell h d := by
  rw [cell, List.getElem?_set]
  by_cases e : c = d
  · subst e; simp [hc]
  · rw [if_neg e, if_neg (Ne.symm e)]; rfl

theorem asNumeric3_ok {v u : V3 α} (h : asNumeric3 v.toList = .ok u) : u = v := by
  unfold asNumeric3 at h
  split at h
  · cases h
  · cases h; rfl

/-- all numbers of cells are in range, and no two planes share a normal -/
structure World.Ok (w : World α) : Prop where
  arrs : ∀ c ∈ w.arrs, c < w.heap.length
  points : ∀ o ∈ w.planes, o.r0 < w.heap.length
  normals : ∀ o ∈ w.planes, o.n < w.heap.length
  boxes : ∀ b ∈ w.boxes, b.origin < w.heap.length ∧ b.shape < w.heap.length
  distinct : (w.planes.map PlaneObj.n).Nodup

/-- where a cell may come from that a command passes on -/
def World.Known (w : World α) (c : ℕ) : Prop := c ∈ w.arrs ∨ ∃ o ∈ w.planes, o.r0 = c

/-- where an argument ends up -/
inductive Placed (w : World α) : CArg α → V3 α → Heap α × ℕ → Prop
  | arr {k c : ℕ} (h : w.arrs[k]? = some c) : Placed w (.arr k) (cell w.heap c) (w.heap, c)
  | data (v : V3 α) : Placed w (.data v) v (w.heap ++ [v], w.heap.length)

theorem placed {w : World α} {a : CArg α} {v : V3 α} (h : w.value a = some v) : Placed w a v (w.place a) := by
  cases a with
  | arr k =>
    obtain ⟨c, h1, rfl⟩ := Option.map_eq_some_iff.mp h
    have : w.place (.arr k) = (w.heap, c) := by simp [World.place, h1]
    rw [this]
    exact .arr h1
  | data u =>
    obtain rfl : u = v := by simpa [World.value] using h
    exact .data _

/-- the plane a command makes, and where its point is -/
inductive MakesPlane (w : World α) : Cmd α → Heap α × ℕ → PyM (Plane α) → Prop
  | plane {a b : CArg α} {p n : V3 α} {hc} (ha : Placed w a p hc) (hb : w.value b = some n) :
      MakesPlane w (.plane a b) hc (Plane.mk' p n)
  | fromPoints {a b c : CArg α} {p q r : V3 α} {hc} (ha : Placed w a p hc) (hb : w.value b = some q) (hr : w.value c = some r) :
      MakesPlane w (.fromPoints a b c) hc (fromPointsChecked p q r)
  | fromPointsAndVector {a b c : CArg α} {p q r : V3 α} {hc} (ha : Placed w a p hc) (hb : w.value b = some q)
      (hr : w.value c = some r) : MakesPlane w (.fromPointsAndVector a b c) hc (fromPointsAndVectorChecked p q r)
  | flipped {p : ℕ} {o : PlaneObj} (h : w.planes[p]? = some o) :
      MakesPlane w (.flipped p) (w.heap, o.r0) (o.view w.heap).flipped

/-- the array a command makes -/
inductive MakesArray (w : World α) : Cmd α → V3 α → Prop
  | array (v : V3 α) : MakesArray w (.array v) v
  | canonicalPoint {p : ℕ} {o : PlaneObj} (h : w.planes[p]? = some o) :
      MakesArray w (.canonicalPoint p) (o.view w.heap).canonicalPoint
  | projectPoint {p k c : ℕ} {o : PlaneObj} (h : w.planes[p]? = some o) (hk : w.arrs[k]? = some c) :
      MakesArray w (.projectPoint p k) ((o.view w.heap).projectPoint (cell w.heap c))
  | centerPoint {b : ℕ} {o : BoxObj} (h : w.boxes[b]? = some o) : MakesArray w (.centerPoint b) (o.view w.heap).centerPoint

/-- the array a command hands out -/
inductive HandsOut (w : World α) : Cmd α → ℕ → Prop
  | referencePoint {p : ℕ} {o : PlaneObj} (h : w.planes[p]? = some o) : HandsOut w (.referencePoint p) o.r0
  | normal {p : ℕ} {o : PlaneObj} (h : w.planes[p]? = some o) : HandsOut w (.normal p) o.n
  | origin {b : ℕ} {o : BoxObj} (h : w.boxes[b]? = some o) : HandsOut w (.origin b) o.origin
  | shape {b : ℕ} {o : BoxObj} (h : w.boxes[b]? = some o) : HandsOut w (.shape b) o.shape

/-- everything a command can do -/
inductive Effect (w : World α) : Cmd α → World α × Option PyErr → Prop
  | nothing {c} : Effect w c (w, none)
  | write {k i : ℕ} {x : α} {c : ℕ} {v : V3 α} (h : w.arrs[k]? = some c) (hv : setEntry (cell w.heap c) i x = .ok v) :
      Effect w (.write k i x) ({ w with heap := w.heap.set c v }, none)
  | writeErr {k i : ℕ} {x : α} {c : ℕ} {e} (h : w.arrs[k]? = some c) (hv : setEntry (cell w.heap c) i x = .error e) :
      Effect w (.write k i x) (w, some e)
  | array {c : Cmd α} {v : V3 α} (h : MakesArray w c v) : Effect w c (w.addArray v)
  | name {c : Cmd α} {d : ℕ} (h : HandsOut w c d) : Effect w c (w.addName d)
  | plane {c : Cmd α} {hc} {r} (h : MakesPlane w c hc r) : Effect w c (w.addPlane hc r)
  | box {o s : CArg α} {u v : V3 α} (ho : w.value o = some u) (hs : w.value s = some v) :
      Effect w (.box o s) (w.addBox o s (Box.mk' u.toList v.toList .float))

theorem effect (w : World α) (c : Cmd α) : Effect w c (w.step c) := by
  cases c with
  | array v => exact .array (.array v)
  | write k i x =>
    simp only [World.step]
    cases h : w.arrs[k]? with
    | none => exact .nothing
    | some c =>
      simp only [World.write]
      cases hv : setEntry (cell w.heap c) i x with
      | ok v => exact .write h hv
      | error e => exact .writeErr h hv
  | plane a b =>
    simp only [World.step]
    split
    · rename_i ha hb; exact .plane (.plane (placed ha) hb)
    · exact .nothing
  | fromPoints a b c =>
    simp only [World.step]
    split
    · rename_i ha hb hc; exact .plane (.fromPoints (placed ha) hb hc)
    · exact .nothing
  | fromPointsAndVector a b c =>
    simp only [World.step]
    split
    · rename_i ha hb hc; exact .plane (.fromPointsAndVector (placed ha) hb hc)
    · exact .nothing
  | flipped p =>
    simp only [World.step]
    split
    · exact .nothing
    · rename_i h; exact .plane (.flipped h)
  | referencePoint p =>
    simp only [World.step]
    split
    · exact .nothing
    · rename_i h; exact .name (.referencePoint h)
  | normal p =>
    simp only [World.step]
    split
    · exact .nothing
    · rename_i h; exact .name (.normal h)
  | canonicalPoint p =>
    simp only [World.step]
    split
    · exact .nothing
    · rename_i h; exact .array (.canonicalPoint h)
  | projectPoint p k =>
    simp only [World.step]
    split
    · rename_i h hk; exact .array (.projectPoint h hk)
    · exact .nothing
  | box o s =>
    simp only [World.step]
    split
    · rename_i ho hs; exact .box ho hs
    · exact .nothing
  | origin b =>
    simp only [World.step]
    split
    · exact .nothing
    · rename_i h; exact .name (.origin h)
  | shape b =>
    simp only [World.step]
    split
    · exact .nothing
    · rename_i h; exact .name (.shape h)
  | centerPoint b =>
    simp only [World.step]
    split
    · exact .nothing
    · rename_i h; exact .array (.centerPoint h)

/-- an argument is an array the program knows, or becomes a new one -/
theorem Placed.cases' {w : World α} {a : CArg α} {v : V3 α} {hc : Heap α × ℕ} (h : Placed w a v hc) :
    (hc.1 = w.heap ∧ hc.2 ∈ w.arrs ∧ v = cell w.heap hc.2) ∨ (hc.1 = w.heap ++ [v] ∧ hc.2 = w.heap.length) := by
  cases h with
  | arr h => exact .inl ⟨rfl, List.mem_of_getElem? h, rfl⟩
  | data v => exact .inr ⟨rfl, rfl⟩

theorem MakesPlane.placed {w : World α} {c : Cmd α} {hc : Heap α × ℕ} {r : PyM (Plane α)} (h : MakesPlane w c hc r) :
    (hc.1 = w.heap ∧ w.Known hc.2) ∨ ∃ v, hc.1 = w.heap ++ [v] ∧ hc.2 = w.heap.length := by
  have aux : ∀ {a : CArg α} {v}, Placed w a v hc → (hc.1 = w.heap ∧ w.Known hc.2) ∨ ∃ v, hc.1 = w.heap ++ [v] ∧ hc.2 = w.heap.length := by
    intro a v h
    rcases h.cases' with ⟨h1, h2, _⟩ | ⟨h1, h2⟩
    · exact .inl ⟨h1, .inl h2⟩
    · exact .inr ⟨v, h1, h2⟩
  cases h with
  | plane ha _ => exact aux ha
  | fromPoints ha _ _ => exact aux ha
  | fromPointsAndVector ha _ _ => exact aux ha
  | flipped h => exact .inl ⟨rfl, .inr ⟨_, List.mem_of_getElem? h, rfl⟩⟩

/-- a plane made by a command comes from the constructor, with the point that is in its cell -/
theorem MakesPlane.made {w : World α} (hw : w.Ok) {c : Cmd α} {hc : Heap α × ℕ} {r : PyM (Plane α)}
    (h : MakesPlane w c hc r) {pl : Plane α} (hr : r = .ok pl) :
    (∃ n, Plane.mk' (cell hc.1 hc.2) n = .ok pl) ∧ hc.2 < hc.1.length := by
  have val : ∀ {a : CArg α} {v}, Placed w a v hc → v = cell hc.1 hc.2 ∧ hc.2 < hc.1.length := by
    intro a v h
    cases h with
    | arr h' => exact ⟨rfl, hw.arrs _ (List.mem_of_getElem? h')⟩
    | data v => exact ⟨(cell_last _ _).symm, by simp⟩
  cases h with
  | plane ha _ => obtain ⟨rfl, h2⟩ := val ha; exact ⟨⟨_, hr⟩, h2⟩
  | fromPoints ha _ _ =>
    obtain ⟨rfl, h2⟩ := val ha
    simp only [fromPointsChecked, bind_eq_ok] at hr
    obtain ⟨p, hp, q, hq, r, hr, h⟩ := hr
    obtain rfl := asNumeric3_ok hp
    exact ⟨⟨_, h⟩, h2⟩
  | fromPointsAndVector ha _ _ =>
    obtain ⟨rfl, h2⟩ := val ha
    simp only [fromPointsAndVectorChecked, bind_eq_ok] at hr
    obtain ⟨p, hp, q, hq, r, hr, h⟩ := hr
    obtain rfl := asNumeric3_ok hp
    exact ⟨⟨_, h⟩, h2⟩
  | flipped h => exact ⟨⟨_, hr⟩, hw.points _ (List.mem_of_getElem? h)⟩

/-- the memory after a new box -/
theorem addBox_eq {w : World α} {o s : CArg α} {u v : V3 α} (ho : w.value o = some u) (hs : w.value s = some v) (b : Box α) :
    ∃ t c d, w.addBox o s (.ok b) = ({ w with heap := w.heap ++ t, boxes := w.boxes ++ [⟨c, d⟩] }, none) ∧
      (c ∈ w.arrs ∨ w.heap.length ≤ c ∧ c < (w.heap ++ t).length) ∧ (d ∈ w.arrs ∨ w.heap.length ≤ d ∧ d < (w.heap ++ t).length) ∧
      (w.Ok → cell (w.heap ++ t) c = u ∧ cell (w.heap ++ t) d = v) := by
  cases o with
  | arr k =>
    obtain ⟨c, h1, rfl⟩ := Option.map_eq_some_iff.mp ho
    have hm := List.mem_of_getElem? h1
    cases s with
    | arr l =>
      obtain ⟨d, h2, rfl⟩ := Option.map_eq_some_iff.mp hs
      exact ⟨[], c, d, by simp [World.addBox, World.place, h1, h2], .inl hm, .inl (List.mem_of_getElem? h2), fun _ => by simp⟩
    | data v' =>
      obtain rfl : v' = v := by simpa [World.value] using hs
      refine ⟨[v'], c, w.heap.length, by simp [World.addBox, World.place, h1], .inl hm, .inr ⟨le_rfl, by simp⟩, fun hw => ?_⟩
      exact ⟨cell_append (hw.arrs _ hm), cell_last _ _⟩
  | data u' =>
    obtain rfl : u' = u := by simpa [World.value] using ho
    cases s with
    | arr l =>
      obtain ⟨d, h2, rfl⟩ := Option.map_eq_some_iff.mp hs
      have hm := List.mem_of_getElem? h2
      refine ⟨[u'], w.heap.length, d, by simp [World.addBox, World.place, h2], .inr ⟨le_rfl, by simp⟩, .inl hm, fun hw => ?_⟩
      exact ⟨cell_last _ _, cell_append (hw.arrs _ hm)⟩
    | data v' =>
      obtain rfl : v' = v := by simpa [World.value] using hs
      refine ⟨[u', v'], w.heap.length, w.heap.length + 1, by simp [World.addBox, World.place], .inr ⟨le_rfl, by simp⟩,
        .inr ⟨by omega, by simp⟩, fun hw => ?_⟩
      constructor <;> simp [cell]

/-- one step of a program, apart from assignments: memory and names only grow -/
structure Grows (w w' : World α) : Prop where
  heap : ∃ t, w'.heap = w.heap ++ t
  arrs : ∃ t, w'.arrs = w.arrs ++ t
  planes : ∃ t, w'.planes = w.planes ++ t
  boxes : ∃ t, w'.boxes = w.boxes ++ t

theorem Grows.refl (w : World α) : Grows w w := ⟨⟨[], by simp⟩, ⟨[], by simp⟩, ⟨[], by simp⟩, ⟨[], by simp⟩⟩

theorem grows (w : World α) (c : Cmd α) : (∃ k i x, c = .write k i x) ∨ Grows w (w.step c).1 := by
  have h := effect w c
  generalize w.step c = r at h ⊢
  cases h with
  | nothing => exact .inr (.refl w)
  | write _ _ => exact .inl ⟨_, _, _, rfl⟩
  | writeErr _ _ => exact .inr (.refl w)
  | array _ => exact .inr ⟨⟨_, rfl⟩, ⟨_, rfl⟩, ⟨[], by simp [World.addArray]⟩, ⟨[], by simp [World.addArray]⟩⟩
  | name _ => exact .inr ⟨⟨[], by simp [World.addName]⟩, ⟨_, rfl⟩, ⟨[], by simp [World.addName]⟩, ⟨[], by simp [World.addName]⟩⟩
  | @plane _ hc r h =>
    right
    cases r with
    | error e => exact .refl w
    | ok pl =>
      refine ⟨?_, ⟨[], by simp [World.addPlane]⟩, ⟨_, rfl⟩, ⟨[], by simp [World.addPlane]⟩⟩
      rcases h.placed with ⟨h1, _⟩ | ⟨v, h1, _⟩
      · exact ⟨[pl.n], by simp [World.addPlane, h1]⟩
      · exact ⟨[v, pl.n], by simp [World.addPlane, h1]⟩
  | @box o s u v ho hs =>
    right
    cases hb : Box.mk' u.toList v.toList .float with
    | error e => exact .refl w
    | ok b =>
      obtain ⟨t, c, d, h1, _⟩ := addBox_eq ho hs b
      rw [h1]
      exact ⟨⟨t, rfl⟩, ⟨[], by simp⟩, ⟨[], by simp⟩, ⟨_, rfl⟩⟩

/-- names are never reused -/
theorem names (w : World α) (c : Cmd α) : (∃ t, (w.step c).1.arrs = w.arrs ++ t) ∧ (∃ t, (w.step c).1.planes = w.planes ++ t) ∧
    (∃ t, (w.step c).1.boxes = w.boxes ++ t) ∧ w.heap.length ≤ (w.step c).1.heap.length := by
  rcases grows w c with ⟨k, i, x, rfl⟩ | h
  · have h := effect w (.write k i x)
    generalize w.step (.write k i x) = r at h ⊢
    cases h with
    | nothing => exact ⟨⟨[], by simp⟩, ⟨[], by simp⟩, ⟨[], by simp⟩, le_rfl⟩
    | write _ _ => exact ⟨⟨[], by simp⟩, ⟨[], by simp⟩, ⟨[], by simp⟩, by simp⟩
    | writeErr _ _ => exact ⟨⟨[], by simp⟩, ⟨[], by simp⟩, ⟨[], by simp⟩, le_rfl⟩
    | array h => cases h
    | name h => cases h
    | plane h => cases h
  · obtain ⟨t, ht⟩ := h.heap
    exact ⟨h.arrs, h.planes, h.boxes, by rw [ht]; simp⟩

theorem step_ok {w : World α} (hw : w.Ok) (c : Cmd α) : (w.step c).1.Ok := by
  have h := effect w c
  generalize w.step c = r at h ⊢
  cases h with
  | nothing => exact hw
  | writeErr _ _ => exact hw
  | write h _ => exact ⟨by simpa using hw.arrs, by simpa using hw.points, by simpa using hw.normals, by simpa using hw.boxes, hw.distinct⟩
  | @array _ v h =>
    have hl : (w.heap ++ [v]).length = w.heap.length + 1 := by simp
    refine ⟨?_, ?_, ?_, ?_, hw.distinct⟩
    · intro c hc
      simp only [World.addArray] at hc ⊢
      rw [hl]
      rcases List.mem_append.mp hc with hc | hc
      · have := hw.arrs c hc; omega
      · have : c = w.heap.length := by simpa using hc
        omega
    · intro o ho
      have := hw.points o ho
      simp only [World.addArray]
      omega
    · intro o ho
      have := hw.normals o ho
      simp only [World.addArray]
      omega
    · intro o ho
      have := hw.boxes o ho
      simp only [World.addArray]
      omega
  | @name _ d h =>
    refine ⟨?_, hw.points, hw.normals, hw.boxes, hw.distinct⟩
    intro c hc
    rcases List.mem_append.mp hc with hc | hc
    · exact hw.arrs c hc
    · have : c = d := by simpa using hc
      subst this
      cases h with
      | referencePoint h => exact hw.points _ (List.mem_of_getElem? h)
      | normal h => exact hw.normals _ (List.mem_of_getElem? h)
      | origin h => exact (hw.boxes _ (List.mem_of_getElem? h)).1
      | shape h => exact (hw.boxes _ (List.mem_of_getElem? h)).2
  | @plane _ hc r h =>
    cases r with
    | error e => exact hw
    | ok pl =>
      have hm := (h.made hw rfl).2
      have hlen : w.heap.length ≤ hc.1.length := by
        rcases h.placed with ⟨h1, _⟩ | ⟨v, h1, _⟩
        · rw [h1]
        · rw [h1]; simp
      have hl : (hc.1 ++ [pl.n]).length = hc.1.length + 1 := by simp
      refine ⟨?_, ?_, ?_, ?_, ?_⟩
      · intro c h
        have := hw.arrs c h
        simp only [World.addPlane]
        omega
      · intro o ho
        simp only [World.addPlane] at ho ⊢
        rcases List.mem_append.mp ho with ho | ho
        · have := hw.points o ho; omega
        · obtain rfl := List.mem_singleton.mp ho
          simp only; omega
      · intro o ho
        simp only [World.addPlane] at ho ⊢
        rcases List.mem_append.mp ho with ho | ho
        · have := hw.normals o ho; omega
        · obtain rfl := List.mem_singleton.mp ho
          simp only; omega
      · intro o ho
        have := hw.boxes o ho
        simp only [World.addPlane]
        omega
      · simp only [World.addPlane, List.map_append, List.map_cons, List.map_nil]
        rw [List.nodup_append]
        refine ⟨hw.distinct, by simp, ?_⟩
        intro a ha b hb
        obtain ⟨o, ho, rfl⟩ := List.mem_map.mp ha
        obtain rfl := List.mem_singleton.mp hb
        have := hw.normals o ho
        omega
  | @box o s u v ho hs =>
    cases hb : Box.mk' u.toList v.toList .float with
    | error e => exact hw
    | ok b =>
      obtain ⟨t, c, d, h1, h2, h3, _⟩ := addBox_eq ho hs b
      rw [h1]
      have hl : (w.heap ++ t).length = w.heap.length + t.length := by simp
      refine ⟨?_, ?_, ?_, ?_, hw.distinct⟩
      · intro c h
        have := hw.arrs c h
        simp only; omega
      · intro o ho
        have := hw.points o ho
        simp only; omega
      · intro o ho
        have := hw.normals o ho
        simp only; omega
      · intro o ho
        simp only at ho ⊢
        rcases List.mem_append.mp ho with ho | ho
        · have := hw.boxes o ho; omega
        · obtain rfl := List.mem_singleton.mp ho
          simp only
          constructor
          · rcases h2 with h | h
            · have := hw.arrs _ h; omega
            · exact h.2
          · rcases h3 with h | h
            · have := hw.arrs _ h; omega
            · exact h.2

end Blmath.Geometry.PMem
