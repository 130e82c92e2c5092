import Verif.Model.CompositeMemory

/-!
Lemmas about the memory of composite transforms.
-/

namespace Blmath.Geometry.TMem
open Blmath.Vx
variable {α : Type} [Num α] [Trig α]
set_option linter.unusedSectionVars false

theorem cell_append {h t : Heap α} {c : ℕ} (hc : c < h.length) : cell (h ++ t) c = cell h c := by
  rw [cell, List.getElem?_append_left hc]; rfl

theorem cell_last (h : Heap α) (v : Mat 4 4 α) (t : Heap α) : cell (h ++ v :: t) h.length = v := by
  rw [cell, List.getElem?_append_right le_rfl]; simp

theorem cell_set {h : Heap α} {c : ℕ} (hc : c < h.length) (v : Mat 4 4 α) (d : ℕ) :
    cell (h.set c v) d = if d = c then v else cell h d := by
  rw [cell, List.getElem?_set]
  by_cases e : c = d
  · subst e; simp [hc]
  · rw [if_neg e, if_neg (Ne.symm e)]; rfl

theorem pySlice_map {β γ : Type} (f : β → γ) (l : List β) (i j : ℤ) : pySlice (l.map f) i j = (pySlice l i j).map f := by
  unfold pySlice
  simp [List.map_drop, List.map_take]

theorem select_map {β γ : Type} (f : β → γ) (l : List β) (r) : select (l.map f) r = (select l r).map f := by
  unfold select
  split
  · rw [pySlice_map, List.length_map]
  · rfl

theorem mem_select {β : Type} {l : List β} {r} {x : β} (h : x ∈ select l r) : x ∈ l := by
  unfold select at h
  split at h
  · exact List.mem_of_mem_take (List.mem_of_mem_drop h)
  · exact h

theorem matrixFor_one {st : Composite α} {r} {p} (h : select st r = [p]) (rev : Bool) :
    matrixFor st r rev = if rev then p.2 else p.1 := by
  have e : matrixFor st r rev = (let matrices := (select st r).map fun t => if rev then t.2 else Mat.tr t.1
      if matrices.length = 0 then Mat.eye 4 else if rev then reduceDot matrices else Mat.tr (reduceDot matrices)) := by
    cases r <;> rfl
  rw [e, h]
  cases rev
  · simp only [reduceDot]
    rfl
  · simp [reduceDot]

/-- a call adds one transform or none -/
theorem append4_cases (inv : Mat 4 4 α → PyM (Mat 4 4 α)) (st : Composite α) (f : Mat 4 4 α) (r : Option (Mat 4 4 α)) :
    (append4 inv st f r).1 = st ∨ ∃ r', (append4 inv st f r).1 = st ++ [(f, r')] := by
  unfold append4
  dsimp only
  split
  · exact .inl rfl
  · exact .inr ⟨_, rfl⟩

theorem append3_cases (inv : Mat 4 4 α → PyM (Mat 4 4 α)) (st : Composite α) (f : Mat33Arg α) (r : Option (Mat33Arg α)) :
    (append3 inv st f r).1 = st ∨ ∃ p, (append3 inv st f r).1 = st ++ [p] := by
  have h4 : ∀ f r, (append4 inv st f r).1 = st ∨ ∃ p, (append4 inv st f r).1 = st ++ [p] := by
    intro f r
    rcases append4_cases inv st f r with h | ⟨r', h⟩
    · exact .inl h
    · exact .inr ⟨_, h⟩
  unfold append3
  split
  · exact .inl rfl
  · split
    · exact h4 _ _
    · split
      · exact .inl rfl
      · exact h4 _ _

theorem stepT_cases (inv : Mat 4 4 α → PyM (Mat 4 4 α)) (svd : Svd3 α) (st : Composite α) (op : TOp α) :
    stepT inv svd st op = st ∨ ∃ f r, stepT inv svd st op = st ++ [(f, r)] := by
  suffices h : stepT inv svd st op = st ∨ ∃ p, stepT inv svd st op = st ++ [p] by
    rcases h with h | ⟨⟨f, r⟩, h⟩
    · exact .inl h
    · exact .inr ⟨f, r, h⟩
  have h4 : ∀ f r, (append4 inv st f r).1 = st ∨ ∃ p, (append4 inv st f r).1 = st ++ [p] := by
    intro f r
    rcases append4_cases inv st f r with h | ⟨r', h⟩
    · exact .inl h
    · exact .inr ⟨_, h⟩
  have hs : ∀ x, (scaleT inv st x).1 = st ∨ ∃ p, (scaleT inv st x).1 = st ++ [p] := by
    intro x
    unfold scaleT
    split
    · exact .inl rfl
    · exact append3_cases _ _ _ _
  have hr : ∀ m, (appendRotation inv st m).1 = st ∨ ∃ p, (appendRotation inv st m).1 = st ++ [p] := by
    intro m
    cases m with
    | error e => exact .inl rfl
    | ok m => exact append3_cases _ _ _ _
  cases op with
  | append4 f r => exact h4 _ _
  | append3 f r => exact append3_cases _ _ _ _
  | scale x => exact hs x
  | convertUnits f t =>
    simp only [stepT, convertUnitsT]
    split
    · exact .inl rfl
    · exact hs _
  | translate v => exact h4 _ _
  | reorient u l => exact hr _
  | rotate r => exact hr _

/-- all numbers of cells are in range -/
structure World.Ok (w : World α) : Prop where
  arrs : ∀ r ∈ w.arrs, r.cell < w.heap.length
  comps : ∀ st ∈ w.comps, ∀ p ∈ st, p.1 < w.heap.length ∧ p.2 < w.heap.length

/-- everything a command can do -/
inductive Effect (inv : Mat 4 4 α → PyM (Mat 4 4 α)) (svd : Svd3 α) (w : World α) : Cmd α → World α → Prop
  | nothing {c} (h : ∀ t op, c ≠ .call t op) : Effect inv svd w c w
  | write {k i j : ℕ} {x : α} {r : Ref} (h : w.arrs[k]? = some r) (hi : i < r.size) (hj : j < r.size) :
      Effect inv svd w (.write k i j x) { w with heap := w.heap.set r.cell (setEntry (cell w.heap r.cell) i j x) }
  | array (m : Mat 4 4 α) : Effect inv svd w (.array m) (w.addArray m)
  | matrix {t : ℕ} {st : List (ℕ × ℕ)} {range} {rev : Bool} (h : w.comps[t]? = some st) (hs : (select st range).length ≠ 1) :
      Effect inv svd w (.matrixFor t range rev) (w.addArray (Geometry.matrixFor (view w.heap st) range rev))
  | kept {t : ℕ} {st : List (ℕ × ℕ)} {range} {rev : Bool} {p} (h : w.comps[t]? = some st) (hs : select st range = [p]) :
      Effect inv svd w (.matrixFor t range rev) { w with arrs := w.arrs ++ [.full (if rev then p.2 else p.1)] }
  | corner {k c : ℕ} (h : w.arrs[k]? = some (.full c)) : Effect inv svd w (.corner k) { w with arrs := w.arrs ++ [.corner c] }
  | new : Effect inv svd w .new { w with comps := w.comps ++ [[]] }
  | append2 {t f r c d : ℕ} {st} (h : w.comps[t]? = some st) (hf : w.arrs[f]? = some (.full c)) (hr : w.arrs[r]? = some (.full d)) :
      Effect inv svd w (.append4 t f (some r)) (w.addPair t st (c, d))
  | append1 {t f c : ℕ} {st} {m} (h : w.comps[t]? = some st) (hf : w.arrs[f]? = some (.full c)) (hm : inv (cell w.heap c) = .ok m) :
      Effect inv svd w (.append4 t f none) (({ w with heap := w.heap ++ [m] } : World α).addPair t st (c, w.heap.length))
  | call {t : ℕ} {op} {st} {f r} (h : w.comps[t]? = some st) (ho : stepT inv svd (view w.heap st) op = view w.heap st ++ [(f, r)]) :
      Effect inv svd w (.call t op) (w.addNew t st f r)
  | callErr {t : ℕ} {op} {st} (h : w.comps[t]? = some st) (ho : stepT inv svd (view w.heap st) op = view w.heap st) :
      Effect inv svd w (.call t op) w
  | callNone {t : ℕ} {op} (h : w.comps[t]? = none) : Effect inv svd w (.call t op) w

theorem full?_eq {w : World α} {k c : ℕ} : w.full? k = some c ↔ w.arrs[k]? = some (.full c) := by
  unfold World.full?
  split
  · rename_i h; rw [h]; simp
  · rename_i h
    simp only [reduceCtorEq, false_iff]
    exact h c

theorem effect (inv : Mat 4 4 α → PyM (Mat 4 4 α)) (svd : Svd3 α) (w : World α) (c : Cmd α) : Effect inv svd w c (w.step inv svd c) := by
  cases c with
  | array m => exact .array m
  | write k i j x =>
    simp only [World.step]
    cases h : w.arrs[k]? with
    | none => exact .nothing (by simp)
    | some r =>
      dsimp only
      split
      · rename_i hij; exact .write h hij.1 hij.2
      · exact .nothing (by simp)
  | corner k =>
    simp only [World.step]
    cases h : w.full? k with
    | none => exact .nothing (by simp)
    | some c => exact .corner (full?_eq.mp h)
  | new => exact .new
  | append4 t f r =>
    simp only [World.step]
    split
    · rename_i st c h hf
      cases r with
      | none =>
        simp only [World.append4]
        cases hm : inv (cell w.heap c) with
        | error e => exact .nothing (by simp)
        | ok m => exact .append1 h (full?_eq.mp hf) hm
      | some r =>
        dsimp only
        cases hr : w.full? r with
        | none => exact .nothing (by simp)
        | some d => exact .append2 h (full?_eq.mp hf) (full?_eq.mp hr)
    · exact .nothing (by simp)
  | call t op =>
    simp only [World.step]
    cases h : w.comps[t]? with
    | none => exact .callNone h
    | some st =>
      dsimp only
      have hl : (view w.heap st).length = st.length := by simp [view]
      rcases stepT_cases inv svd (view w.heap st) op with ho | ⟨f, r, ho⟩
      · rw [ho, List.drop_of_length_le hl.le]
        exact .callErr h ho
      · rw [ho, List.drop_left' hl]
        exact .call h ho
  | matrixFor t range rev =>
    simp only [World.step]
    cases h : w.comps[t]? with
    | none => exact .nothing (by simp)
    | some st =>
      simp only [World.matrixOf]
      split
      · rename_i p hs; exact .kept h hs
      · rename_i hs
        refine .matrix h ?_
        intro e
        obtain ⟨p, hp⟩ := List.length_eq_one_iff.mp e
        exact hs p hp

theorem view_append {h t : Heap α} {st : List (ℕ × ℕ)} (hs : ∀ p ∈ st, p.1 < h.length ∧ p.2 < h.length) :
    view (h ++ t) st = view h st := by
  unfold view
  apply List.map_congr_left
  intro p hp
  rw [cell_append (hs p hp).1, cell_append (hs p hp).2]

theorem step_ok (inv : Mat 4 4 α → PyM (Mat 4 4 α)) (svd : Svd3 α) {w : World α} (hw : w.Ok) (c : Cmd α) : (w.step inv svd c).Ok := by
  have he := effect inv svd w c
  generalize w.step inv svd c = w' at he ⊢
  have hst : ∀ {t : ℕ} {st}, w.comps[t]? = some st → ∀ p ∈ st, p.1 < w.heap.length ∧ p.2 < w.heap.length :=
    fun h => hw.comps _ (List.mem_of_getElem? h)
  have har : ∀ {k : ℕ} {r}, w.arrs[k]? = some r → r.cell < w.heap.length := fun h => hw.arrs _ (List.mem_of_getElem? h)
  have pair : ∀ {t : ℕ} {st} (hp : Heap α) (p : ℕ × ℕ), w.comps[t]? = some st → p.1 < (w.heap ++ hp).length →
      p.2 < (w.heap ++ hp).length → (({ w with heap := w.heap ++ hp } : World α).addPair t st p).Ok := by
    intro t st hp p h h1 h2
    constructor
    · intro r hr
      have := hw.arrs r hr
      simp only [World.addPair, List.length_append]
      omega
    · intro s hs q hq
      simp only [World.addPair] at hs ⊢
      have old : ∀ s ∈ w.comps, ∀ q ∈ s, q.1 < (w.heap ++ hp).length ∧ q.2 < (w.heap ++ hp).length := by
        intro s hs q hq
        have := hw.comps s hs q hq
        simp only [List.length_append]
        omega
      rcases List.mem_or_eq_of_mem_set hs with hs | rfl
      · exact old s hs q hq
      · simp only [List.mem_append, List.mem_singleton] at hq
        rcases hq with hq | rfl
        · exact old st (List.mem_of_getElem? h) q hq
        · exact ⟨h1, h2⟩
  have arr : ∀ m, (w.addArray m).Ok := by
    intro m
    constructor
    · intro r hr
      simp only [World.addArray, List.mem_append, List.mem_singleton, List.length_append, List.length_singleton] at hr ⊢
      rcases hr with hr | rfl
      · have := hw.arrs r hr; omega
      · simp [Ref.cell]
    · intro s hs q hq
      have := hw.comps s hs q hq
      simp only [World.addArray, List.length_append]
      omega
  have name : ∀ r : Ref, r.cell < w.heap.length → ({ w with arrs := w.arrs ++ [r] } : World α).Ok := by
    intro r hr
    refine ⟨?_, hw.comps⟩
    intro s hs
    simp only [List.mem_append, List.mem_singleton] at hs
    rcases hs with hs | rfl
    · exact hw.arrs s hs
    · exact hr
  cases he with
  | nothing => exact hw
  | callErr _ _ => exact hw
  | callNone _ => exact hw
  | write h _ _ => exact ⟨by simpa using hw.arrs, by simpa using hw.comps⟩
  | array m => exact arr m
  | matrix _ _ => exact arr _
  | @kept t st range rev p h hs =>
    have := hst h p (mem_select (r := range) (by rw [hs]; simp))
    apply name
    cases rev
    · exact this.1
    · exact this.2
  | corner h =>
    have := har h
    exact name _ this
  | new =>
    refine ⟨hw.arrs, ?_⟩
    intro s hs
    simp only [List.mem_append, List.mem_singleton] at hs
    rcases hs with hs | rfl
    · exact hw.comps s hs
    · simp
  | append2 h hf hr =>
    have h1 := har hf
    have h2 := har hr
    have := pair [] (_, _) h (by simpa using h1) (by simpa using h2)
    rw [List.append_nil] at this
    exact this
  | append1 h hf hm =>
    have h1 := har hf
    exact pair [_] (_, _) h (by simp only [Ref.cell, List.length_append] at h1 ⊢; omega) (by simp)
  | call h ho => exact pair [_, _] (_, _) h (by simp) (by simp)

/-- names only grow, and transforms only get longer -/
structure Grows (w w' : World α) : Prop where
  arrs : ∀ (k : ℕ) r, w.arrs[k]? = some r → w'.arrs[k]? = some r
  comps : ∀ (t : ℕ) st, w.comps[t]? = some st → ∃ tl, w'.comps[t]? = some (st ++ tl)

theorem Grows.refl (w : World α) : Grows w w := ⟨fun _ _ h => h, fun _ _ h => ⟨[], by simp [h]⟩⟩

theorem Grows.trans {w w' w'' : World α} (h : Grows w w') (h' : Grows w' w'') : Grows w w'' := by
  refine ⟨fun k r e => h'.arrs k r (h.arrs k r e), fun t st e => ?_⟩
  obtain ⟨a, ha⟩ := h.comps t st e
  obtain ⟨b, hb⟩ := h'.comps t _ ha
  exact ⟨a ++ b, by rw [hb, List.append_assoc]⟩

theorem getElem?_append_some {β : Type} {l m : List β} {i : ℕ} {x : β} (h : l[i]? = some x) : (l ++ m)[i]? = some x := by
  rw [List.getElem?_append_left (List.getElem?_eq_some_iff.mp h).1, h]

theorem set_prefix {w : World α} {t : ℕ} {st : List (ℕ × ℕ)} (h : w.comps[t]? = some st) (p) (t' : ℕ) (st') (h' : w.comps[t']? = some st') :
    ∃ tl, (w.comps.set t (st ++ [p]))[t']? = some (st' ++ tl) := by
  rw [List.getElem?_set]
  by_cases e : t = t'
  · subst e
    rw [h] at h'
    cases h'
    exact ⟨[p], by simp [(List.getElem?_eq_some_iff.mp h).1]⟩
  · rw [if_neg e]
    exact ⟨[], by simp [h']⟩

theorem grows (inv : Mat 4 4 α → PyM (Mat 4 4 α)) (svd : Svd3 α) (w : World α) (c : Cmd α) : Grows w (w.step inv svd c) := by
  have he := effect inv svd w c
  generalize w.step inv svd c = w' at he ⊢
  have arr : ∀ r : Ref, Grows w { w with arrs := w.arrs ++ [r] } :=
    fun r => ⟨fun k _ h => getElem?_append_some h, fun _ _ h => ⟨[], by simp [h]⟩⟩
  cases he with
  | nothing => exact .refl w
  | callErr _ _ => exact .refl w
  | callNone _ => exact .refl w
  | write _ _ _ => exact ⟨fun _ _ h => h, fun _ _ h => ⟨[], by simp [h]⟩⟩
  | array m => exact ⟨(arr _).arrs, (arr (.full 0)).comps⟩
  | matrix _ _ => exact ⟨(arr _).arrs, (arr (.full 0)).comps⟩
  | kept _ _ => exact arr _
  | corner _ => exact arr _
  | new => exact ⟨fun _ _ h => h, fun _ _ h => ⟨[], by rw [List.append_nil]; exact getElem?_append_some h⟩⟩
  | append2 h _ _ => exact ⟨fun _ _ h => h, set_prefix h _⟩
  | append1 h _ _ => exact ⟨fun _ _ h => h, set_prefix h _⟩
  | call h _ => exact ⟨fun _ _ h => h, set_prefix h _⟩

theorem grows_run (inv : Mat 4 4 α → PyM (Mat 4 4 α)) (svd : Svd3 α) (w : World α) (cs : List (Cmd α)) : Grows w (w.run inv svd cs) := by
  induction cs generalizing w with
  | nil => exact .refl w
  | cons c cs ih => exact (grows inv svd w c).trans (ih _)

theorem run_ok (inv : Mat 4 4 α → PyM (Mat 4 4 α)) (svd : Svd3 α) {w : World α} (hw : w.Ok) (cs : List (Cmd α)) : (w.run inv svd cs).Ok := by
  induction cs generalizing w with
  | nil => exact hw
  | cons c cs ih => exact ih (step_ok inv svd hw c)

/-- without assignments, memory only grows -/
theorem heap_grows (inv : Mat 4 4 α → PyM (Mat 4 4 α)) (svd : Svd3 α) (w : World α) (c : Cmd α) (hc : ∀ k i j x, c ≠ .write k i j x) :
    ∃ t, (w.step inv svd c).heap = w.heap ++ t := by
  have he := effect inv svd w c
  generalize w.step inv svd c = w' at he ⊢
  cases he with
  | write _ _ _ => exact absurd rfl (hc _ _ _ _)
  | nothing => exact ⟨[], by simp⟩
  | callErr _ _ => exact ⟨[], by simp⟩
  | callNone _ => exact ⟨[], by simp⟩
  | array m => exact ⟨_, rfl⟩
  | matrix _ _ => exact ⟨_, rfl⟩
  | kept _ _ => exact ⟨[], by simp⟩
  | corner _ => exact ⟨[], by simp⟩
  | new => exact ⟨[], by simp⟩
  | append2 _ _ _ => exact ⟨[], by simp [World.addPair]⟩
  | append1 _ _ _ => exact ⟨_, rfl⟩
  | call _ _ => exact ⟨_, rfl⟩

end Blmath.Geometry.TMem
