import Verif.Proofs.CompositeMemory
import Verif.Props.Composite

/-!
Property C96: composite transforms that share memory with matrices.
-/

namespace Blmath.Props
open Blmath.Geometry Blmath.Geometry.TMem Blmath.Spec Blmath.Vx

variable {α : Type} [Num α] [Trig α] {inv : Mat 4 4 α → PyM (Mat 4 4 α)} {svd : Svd3 α}
set_option linter.unusedSectionVars false

namespace TM

/-- a program before its first command -/
def start (α : Type) : World α := ⟨[], [], []⟩

/-- what a transform looks like -/
def look (w : World α) (t : ℕ) : Option (Composite α) := w.comps[t]?.map (view w.heap)

/-- the entries of a 4×4 array -/
def entries (w : World α) (k : ℕ) : Option (Mat 4 4 α) :=
  match w.arrs[k]? with
  | some (.full c) => some (cell w.heap c)
  | _ => none

/-- the entries of a 3×3 array -/
def small (w : World α) (k : ℕ) : Option (Mat 3 3 α) :=
  match w.arrs[k]? with
  | some (.corner c) => some (convert44To33 (cell w.heap c))
  | _ => none

/-- the worlds a program can get to -/
def Reached (inv : Mat 4 4 α → PyM (Mat 4 4 α)) (svd : Svd3 α) (w : World α) : Prop := ∃ cs, w = (start α).run inv svd cs

theorem Reached.ok {w : World α} (h : Reached inv svd w) : w.Ok := by
  obtain ⟨cs, rfl⟩ := h
  exact run_ok inv svd ⟨by simp [start], by simp [start]⟩ cs

/-- an assignment into an array -/
def IsWrite : Cmd α → Prop
  | .write .. => True
  | _ => False

/-- the command adds to the transform `t` -/
def AddsTo (t : ℕ) : Cmd α → Prop
  | .append4 s _ _ | .call s _ => s = t
  | _ => False

theorem entries_eq {w : World α} {k c : ℕ} (h : w.arrs[k]? = some (.full c)) : entries w k = some (cell w.heap c) := by
  simp [entries, h]

theorem entries_some {w : World α} {k : ℕ} {m} (h : entries w k = some m) : ∃ c, w.arrs[k]? = some (.full c) ∧ m = cell w.heap c := by
  unfold entries at h
  split at h
  · rename_i c hc; cases h; exact ⟨c, hc, rfl⟩
  · cases h

theorem small_eq {w : World α} {k c : ℕ} (h : w.arrs[k]? = some (.corner c)) : small w k = some (convert44To33 (cell w.heap c)) := by
  simp [small, h]

theorem small_some {w : World α} {k : ℕ} {m} (h : small w k = some m) :
    ∃ c, w.arrs[k]? = some (.corner c) ∧ m = convert44To33 (cell w.heap c) := by
  unfold small at h
  split at h
  · rename_i c hc; cases h; exact ⟨c, hc, rfl⟩
  · cases h

theorem look_some {w : World α} {t : ℕ} {st} (h : look w t = some st) : ∃ s, w.comps[t]? = some s ∧ st = view w.heap s := by
  obtain ⟨s, h1, rfl⟩ := Option.map_eq_some_iff.mp h
  exact ⟨s, h1, rfl⟩

theorem set_get {w : World α} {t : ℕ} {st} (h : w.comps[t]? = some st) (x) : (w.comps.set t x)[t]? = some x := by
  simp [(List.getElem?_eq_some_iff.mp h).1]

end TM
open TM

/-- C96.  What the methods do to the matrices is what the model of C53 and C54 says, with what the arrays hold at the moment. -/
theorem C96_results {w : World α} (hw : Reached inv svd w) :
    (∀ t st, look w t = some st →
      (∀ op, look (w.step inv svd (.call t op)) t = some (stepT inv svd st op)) ∧
      (∀ f m, entries w f = some m →
        look (w.step inv svd (.append4 t f none)) t = some (Geometry.append4 inv st m none).1 ∧
        ∀ r m', entries w r = some m' →
          look (w.step inv svd (.append4 t f (some r))) t = some (Geometry.append4 inv st m (some m')).1) ∧
      ∀ range rev, entries (w.step inv svd (.matrixFor t range rev)) w.arrs.length = some (matrixFor st range rev)) ∧
    (∀ k m, entries w k = some m → small (w.step inv svd (.corner k)) w.arrs.length = some (convert44To33 m)) ∧
    look (w.step inv svd .new) w.comps.length = some [] := by
  have hk := hw.ok
  refine ⟨?_, ?_, ?_⟩
  · intro t st h
    obtain ⟨s, h1, rfl⟩ := look_some h
    have hs := hk.comps s (List.mem_of_getElem? h1)
    refine ⟨?_, ?_, ?_⟩
    · intro op
      have he := effect inv svd w (.call t op)
      generalize w.step inv svd (.call t op) = w' at he ⊢
      cases he with
      | nothing h => exact absurd rfl (h _ _)
      | callNone h => rw [h1] at h; cases h
      | callErr h ho =>
        rw [h1] at h; cases h
        rw [ho, look, h1]; rfl
      | @call _ _ _ f r h ho =>
        rw [h1] at h; cases h
        rw [ho]
        simp only [look, World.addNew, World.addPair, set_get h1, Option.map_some]
        have e1 : cell (w.heap ++ [f, r]) w.heap.length = f := cell_last _ _ _
        have e2 : cell (w.heap ++ [f, r]) (w.heap.length + 1) = r := by simp [cell]
        have e3 := view_append (t := [f, r]) hs
        unfold view at e3 ⊢
        simp [e1, e2, e3]
    · intro f m hf
      obtain ⟨c, h2, rfl⟩ := entries_some hf
      refine ⟨?_, ?_⟩
      · have hcl := hk.arrs _ (List.mem_of_getElem? h2)
        have e : w.step inv svd (.append4 t f none) = w.append4 inv t s c none := by
          simp only [World.step, h1, full?_eq.mpr h2]
        rw [e]
        simp only [World.append4, Geometry.append4]
        cases hm : inv (cell w.heap c) with
        | error e => simp [look, h1]
        | ok m =>
          simp only [look, World.addPair, set_get h1, Option.map_some]
          have e1 : cell (w.heap ++ [m]) w.heap.length = m := cell_last _ _ _
          have e3 := view_append (t := [m]) hs
          unfold view at e3 ⊢
          simp [e1, e3, cell_append hcl]
          exact cell_append hcl
      · intro r m' hr
        obtain ⟨d, h3, rfl⟩ := entries_some hr
        have e : w.step inv svd (.append4 t f (some r)) = w.append4 inv t s c (some d) := by
          simp only [World.step, h1, full?_eq.mpr h2, full?_eq.mpr h3]
        rw [e]
        simp only [World.append4, Geometry.append4, look, World.addPair, set_get h1, Option.map_some]
        simp [view]
    · intro range rev
      simp only [World.step, h1, World.matrixOf]
      split
      · rename_i p hp
        rw [entries_eq (c := if rev then p.2 else p.1) (by simp)]
        have : select (view w.heap s) range = [(cell w.heap p.1, cell w.heap p.2)] := by
          unfold view
          rw [select_map, hp]; rfl
        rw [matrixFor_one this]
        cases rev <;> rfl
      · rw [entries_eq (c := w.heap.length) (by simp [World.addArray])]
        simp [World.addArray, cell_last]
  · intro k m h
    obtain ⟨c, h1, rfl⟩ := entries_some h
    simp only [World.step, full?_eq.mpr h1]
    rw [small_eq (c := c) (by simp)]
  · simp [World.step, look, view]

/-- C96.  Apart from assignments into arrays and the methods that append, nothing a program does changes an array or a transform it
has; and those that append leave the transforms before as they are. -/
theorem C96_frame {w : World α} (hw : Reached inv svd w) (c : Cmd α) (hc : ¬ IsWrite c) :
    (∀ k m, entries w k = some m → entries (w.step inv svd c) k = some m) ∧
    (∀ k m, small w k = some m → small (w.step inv svd c) k = some m) ∧
    (∀ t st, look w t = some st → ∃ tl, look (w.step inv svd c) t = some (st ++ tl) ∧ (¬ AddsTo t c → tl = [])) := by
  have hk := hw.ok
  have hg := grows inv svd w c
  obtain ⟨t, ht⟩ := heap_grows inv svd w c (by rintro k i j x rfl; exact hc trivial)
  refine ⟨?_, ?_, ?_⟩
  · intro k m h
    obtain ⟨c', h1, rfl⟩ := entries_some h
    rw [entries_eq (hg.arrs k _ h1), ht, cell_append]
    exact hk.arrs _ (List.mem_of_getElem? h1)
  · intro k m h
    obtain ⟨c', h1, rfl⟩ := small_some h
    rw [small_eq (hg.arrs k _ h1), ht, cell_append]
    exact hk.arrs _ (List.mem_of_getElem? h1)
  · intro s st h
    obtain ⟨u, h1, rfl⟩ := look_some h
    have hs := hk.comps u (List.mem_of_getElem? h1)
    obtain ⟨tl, h2⟩ := hg.comps s u h1
    refine ⟨view (w.step inv svd c).heap tl, ?_, ?_⟩
    · rw [look, h2, Option.map_some, ht]
      have := view_append (t := t) hs
      unfold view at this ⊢
      rw [List.map_append, this]
    · intro hn
      suffices (w.step inv svd c).comps[s]? = some u by
        rw [this] at h2
        have : tl = [] := by simpa using h2
        rw [this]; rfl
      have he := effect inv svd w c
      generalize w.step inv svd c = w' at he ⊢
      have oth : ∀ {t' : ℕ} {x}, t' ≠ s → (w.comps.set t' x)[s]? = some u := by
        intro t' x hne
        rw [List.getElem?_set, if_neg hne, h1]
      cases he with
      | new => exact getElem?_append_some h1
      | append2 _ _ _ => exact oth hn
      | append1 _ _ _ => exact oth hn
      | call _ _ => exact oth hn
      | _ => exact h1

/-- C96.  `append_transform4` keeps the arrays it is given, `matrix_for` of one transform hands out the array kept, and
`convert_44_to_33` a view: after anything the program may do, whatever is assigned to them, they hold the same. -/
theorem C96_shared (w : World α) :
    (∀ t st f m, look w t = some st → entries w f = some m →
      (∀ r m', entries w r = some m' → ∀ cs, ∃ st' a b, look ((w.step inv svd (.append4 t f (some r))).run inv svd cs) t = some st' ∧
        entries ((w.step inv svd (.append4 t f (some r))).run inv svd cs) f = some a ∧
        entries ((w.step inv svd (.append4 t f (some r))).run inv svd cs) r = some b ∧ st'[st.length]? = some (a, b)) ∧
      (∀ i, inv m = .ok i → ∀ cs, ∃ st' a b, look ((w.step inv svd (.append4 t f none)).run inv svd cs) t = some st' ∧
        entries ((w.step inv svd (.append4 t f none)).run inv svd cs) f = some a ∧ st'[st.length]? = some (a, b))) ∧
    (∀ t st range rev i, look w t = some st → select (List.range st.length) range = [i] →
      ∀ cs, ∃ st' a b, look ((w.step inv svd (.matrixFor t range rev)).run inv svd cs) t = some st' ∧ st'[i]? = some (a, b) ∧
        entries ((w.step inv svd (.matrixFor t range rev)).run inv svd cs) w.arrs.length = some (if rev then b else a)) ∧
    (∀ k m, entries w k = some m → ∀ cs, ∃ a, entries ((w.step inv svd (.corner k)).run inv svd cs) k = some a ∧
      small ((w.step inv svd (.corner k)).run inv svd cs) w.arrs.length = some (convert44To33 a)) := by
  refine ⟨?_, ?_, ?_⟩
  · intro t st f m h hf
    obtain ⟨s, h1, rfl⟩ := look_some h
    obtain ⟨c, h2, rfl⟩ := entries_some hf
    have hl : (view w.heap s).length = s.length := by simp [view]
    refine ⟨?_, ?_⟩
    · intro r m' hr cs
      obtain ⟨d, h3, rfl⟩ := entries_some hr
      have e : w.step inv svd (.append4 t f (some r)) = w.addPair t s (c, d) := by
        simp only [World.step, h1, full?_eq.mpr h2, full?_eq.mpr h3]; rfl
      rw [e]
      have hg := grows_run inv svd (w.addPair t s (c, d)) cs
      generalize (w.addPair t s (c, d)).run inv svd cs = w' at hg ⊢
      obtain ⟨tl, h4⟩ := hg.comps t (s ++ [(c, d)]) (set_get h1 _)
      exact ⟨_, _, _, by rw [look, h4]; rfl, entries_eq (hg.arrs f _ h2), entries_eq (hg.arrs r _ h3), by simp [hl, view]⟩
    · intro i hi cs
      have e : w.step inv svd (.append4 t f none) =
          ({ w with heap := w.heap ++ [i] } : World α).addPair t s (c, w.heap.length) := by
        simp only [World.step, h1, full?_eq.mpr h2, World.append4, hi]
      rw [e]
      have hg := grows_run inv svd (({ w with heap := w.heap ++ [i] } : World α).addPair t s (c, w.heap.length)) cs
      generalize (({ w with heap := w.heap ++ [i] } : World α).addPair t s (c, w.heap.length)).run inv svd cs = w' at hg ⊢
      obtain ⟨tl, h4⟩ := hg.comps t (s ++ [(c, w.heap.length)]) (set_get h1 _)
      exact ⟨_, _, cell w'.heap w.heap.length, by rw [look, h4]; rfl, entries_eq (hg.arrs f _ h2), by simp [hl, view]⟩
  · intro t st range rev i h hr cs
    obtain ⟨s, h1, rfl⟩ := look_some h
    have hl : (view w.heap s).length = s.length := by simp [view]
    rw [hl] at hr
    have hi : i < s.length := by
      have : i ∈ List.range s.length := mem_select (r := range) (by rw [hr]; simp)
      simpa using this
    have hsel : select s range = [s[i]] := by
      have e : s = (List.range s.length).map fun j => s[j]?.getD (0, 0) := by
        apply List.ext_getElem (by simp)
        intro j hj _
        simp [hj]
      conv_lhs => rw [e]
      rw [select_map, hr]
      simp [hi]
    have e : w.step inv svd (.matrixFor t range rev) = { w with arrs := w.arrs ++ [.full (if rev then s[i].2 else s[i].1)] } := by
      simp only [World.step, h1, World.matrixOf, hsel]
    rw [e]
    have hg := grows_run inv svd { w with arrs := w.arrs ++ [.full (if rev then s[i].2 else s[i].1)] } cs
    generalize ({ w with arrs := w.arrs ++ [.full (if rev then s[i].2 else s[i].1)] } : World α).run inv svd cs = w' at hg ⊢
    obtain ⟨tl, h4⟩ := hg.comps t s h1
    refine ⟨_, cell w'.heap s[i].1, cell w'.heap s[i].2, by rw [look, h4]; rfl, ?_, ?_⟩
    · simp only [view, List.getElem?_map]
      rw [List.getElem?_append_left hi, List.getElem?_eq_getElem hi]; rfl
    · rw [entries_eq (hg.arrs w.arrs.length (.full (if rev then s[i].2 else s[i].1)) (by simp))]
      cases rev <;> rfl
  · intro k m h cs
    obtain ⟨c, h1, rfl⟩ := entries_some h
    have e : w.step inv svd (.corner k) = { w with arrs := w.arrs ++ [.corner c] } := by
      simp only [World.step, full?_eq.mpr h1]
    rw [e]
    have hg := grows_run inv svd { w with arrs := w.arrs ++ [.corner c] } cs
    generalize ({ w with arrs := w.arrs ++ [.corner c] } : World α).run inv svd cs = w' at hg ⊢
    exact ⟨_, entries_eq (hg.arrs k _ (getElem?_append_some h1)), small_eq (hg.arrs w.arrs.length _ (by simp))⟩

/-- the index of a row, or column, that the array has: four, or three of a corner -/
def InSize : Ref → ℕ → Prop
  | .full _, i => i < 4
  | .corner _, i => i < 3

theorem inSize_iff (r : Ref) (i : ℕ) : InSize r i ↔ i < r.size := by cases r <;> exact Iff.rfl

/-- C96.  An assignment changes one entry of the array, of everything that shares it, and of nothing else. -/
theorem C96_write {w : World α} (hw : Reached inv svd w) (k i j : ℕ) (x : α) (r : Ref) (hr : w.arrs[k]? = some r) :
    (¬ InSize r i ∨ ¬ InSize r j → w.step inv svd (.write k i j x) = w) ∧
    (InSize r i → InSize r j → ∃ new : Mat 4 4 α,
      (∀ a b, new a b = if a.val = i ∧ b.val = j then x else cell w.heap r.cell a b) ∧
      (∀ l c, w.arrs[l]? = some (.full c) →
        entries (w.step inv svd (.write k i j x)) l = some (if c = r.cell then new else cell w.heap c)) ∧
      (∀ l c, w.arrs[l]? = some (.corner c) →
        small (w.step inv svd (.write k i j x)) l = some (convert44To33 (if c = r.cell then new else cell w.heap c))) ∧
      (∀ t s, w.comps[t]? = some s → look (w.step inv svd (.write k i j x)) t = some (s.map fun p =>
        (if p.1 = r.cell then new else cell w.heap p.1, if p.2 = r.cell then new else cell w.heap p.2)))) := by
  have hc := hw.ok.arrs r (List.mem_of_getElem? hr)
  rw [inSize_iff, inSize_iff]
  constructor
  · intro h
    simp only [World.step, hr]
    rw [if_neg (by omega)]
  · intro hi hj
    refine ⟨setEntry (cell w.heap r.cell) i j x, fun a b => rfl, ?_⟩
    simp only [World.step, hr]
    rw [if_pos ⟨hi, hj⟩]
    refine ⟨?_, ?_, ?_⟩
    · intro l c h
      have := entries_eq (w := { w with heap := w.heap.set r.cell (setEntry (cell w.heap r.cell) i j x) }) h
      rw [this, cell_set hc]
    · intro l c h
      have := small_eq (w := { w with heap := w.heap.set r.cell (setEntry (cell w.heap r.cell) i j x) }) h
      rw [this, cell_set hc]
    · intro t s h
      simp only [look, h, Option.map_some, view, cell_set hc]

namespace TM

/-- the transform `t` has its matrices to itself -/
structure Private (w : World α) (t : ℕ) (s : List (ℕ × ℕ)) : Prop where
  at_ : w.comps[t]? = some s
  arrs : ∀ p ∈ s, ∀ r ∈ w.arrs, r.cell ≠ p.1 ∧ r.cell ≠ p.2
  comps : ∀ (u : ℕ) s', w.comps[u]? = some s' → u ≠ t → ∀ p ∈ s, ∀ q ∈ s', q.1 ≠ p.1 ∧ q.1 ≠ p.2 ∧ q.2 ≠ p.1 ∧ q.2 ≠ p.2

/-- the transform `t` is given no arrays to keep, and no matrix of a single one of its transforms is asked for -/
def Guarded (inv : Mat 4 4 α → PyM (Mat 4 4 α)) (svd : Svd3 α) (t : ℕ) : World α → List (Cmd α) → Prop
  | _, [] => True
  | w, c :: cs => (match c with
      | .append4 s _ _ => s ≠ t
      | .matrixFor s range _ => s = t → ∀ st, look w t = some st → (select st range).length ≠ 1
      | _ => True) ∧ Guarded inv svd t (w.step inv svd c) cs

/-- the calls of methods of the transform `t` in a history -/
def callsOn (t : ℕ) : List (Cmd α) → List (TOp α)
  | [] => []
  | .call s op :: cs => if s = t then op :: callsOn t cs else callsOn t cs
  | _ :: cs => callsOn t cs

/-- the calls in one command -/
def callOf (t : ℕ) : Cmd α → List (TOp α)
  | .call s op => if s = t then [op] else []
  | _ => []

theorem callsOn_cons (t : ℕ) (c : Cmd α) (cs) : callsOn t (c :: cs) = callOf t c ++ callsOn t cs := by
  cases c with
  | call s op =>
    simp only [callsOn, callOf]
    split <;> rfl
  | _ => rfl

theorem private_step {w : World α} (hw : w.Ok) {t : ℕ} {s} (h : Private w t s) (c : Cmd α) (cs : List (Cmd α))
    (hc : Guarded inv svd t w (c :: cs)) :
    ∃ s', Private (w.step inv svd c) t s' ∧
      view (w.step inv svd c).heap s' = runT inv svd (view w.heap s) (callOf t c) := by
  have hs := hw.comps s (List.mem_of_getElem? h.at_)
  have he := effect inv svd w c
  have hc := hc.1
  generalize w.step inv svd c = w' at he ⊢
  have hnew : ∀ c, w.heap.length ≤ c → ∀ p ∈ s, c ≠ p.1 ∧ c ≠ p.2 := by
    intro c hc p hp
    have := hs p hp
    omega
  have arr : ∀ r : Ref, (∀ p ∈ s, r.cell ≠ p.1 ∧ r.cell ≠ p.2) → ∀ p ∈ s, ∀ r' ∈ w.arrs ++ [r], r'.cell ≠ p.1 ∧ r'.cell ≠ p.2 := by
    intro r hr p hp r' hr'
    simp only [List.mem_append, List.mem_singleton] at hr'
    rcases hr' with hr' | rfl
    · exact h.arrs p hp r' hr'
    · exact hr p hp
  have pair : ∀ {u : ℕ} {su} (q : ℕ × ℕ) (hp : Heap α), w.comps[u]? = some su → u ≠ t →
      (∀ p ∈ s, q.1 ≠ p.1 ∧ q.1 ≠ p.2 ∧ q.2 ≠ p.1 ∧ q.2 ≠ p.2) →
      ∃ s', Private (({ w with heap := w.heap ++ hp } : World α).addPair u su q) t s' ∧
        view (({ w with heap := w.heap ++ hp } : World α).addPair u su q).heap s' = view w.heap s := by
    intro u su q hp hu hut hq
    refine ⟨s, ⟨?_, h.arrs, ?_⟩, view_append hs⟩
    · simp only [World.addPair]
      rw [List.getElem?_set, if_neg hut, h.at_]
    · intro v sv hv hvt p hp x hx
      simp only [World.addPair] at hv
      rw [List.getElem?_set] at hv
      by_cases e : u = v
      · subst e
        rw [if_pos rfl, if_pos (List.getElem?_eq_some_iff.mp hu).1] at hv
        cases hv
        simp only [List.mem_append, List.mem_singleton] at hx
        rcases hx with hx | rfl
        · exact h.comps u su hu hvt p hp x hx
        · exact hq p hp
      · rw [if_neg e] at hv
        exact h.comps v sv hv hvt p hp x hx
  cases he with
  | nothing h' =>
    refine ⟨s, h, ?_⟩
    cases c with
    | call u op => exact absurd rfl (h' _ _)
    | _ => rfl
  | @write k i j x r hk hi hj =>
    refine ⟨s, ⟨h.at_, h.arrs, h.comps⟩, ?_⟩
    have hr := h.arrs
    have hl := hw.arrs r (List.mem_of_getElem? hk)
    show view _ s = view w.heap s
    unfold view
    apply List.map_congr_left
    intro p hp
    have := h.arrs p hp r (List.mem_of_getElem? hk)
    rw [cell_set hl, cell_set hl, if_neg this.1.symm, if_neg this.2.symm]
  | array m => exact ⟨s, ⟨h.at_, arr _ (hnew _ le_rfl), h.comps⟩, view_append hs⟩
  | matrix _ _ => exact ⟨s, ⟨h.at_, arr _ (hnew _ le_rfl), h.comps⟩, view_append hs⟩
  | @kept u su range rev p hu hp =>
    have hut : u ≠ t := by
      rintro rfl
      rw [h.at_] at hu
      cases hu
      apply hc rfl (view w.heap s) (by rw [look, h.at_]; rfl)
      unfold view
      rw [select_map, hp]; rfl
    have hm : p ∈ su := mem_select (r := range) (by rw [hp]; simp)
    refine ⟨s, ⟨h.at_, arr _ ?_, h.comps⟩, rfl⟩
    intro q hq
    have := h.comps u su hu hut q hq p hm
    cases rev
    · exact ⟨this.1, this.2.1⟩
    · exact this.2.2
  | @corner k c hk =>
    exact ⟨s, ⟨h.at_, arr _ (fun p hp => by
      have := h.arrs p hp (.full c) (List.mem_of_getElem? hk)
      exact this), h.comps⟩, rfl⟩
  | new =>
    refine ⟨s, ⟨getElem?_append_some h.at_, h.arrs, ?_⟩, rfl⟩
    intro u su hu hut p hp q hq
    simp only at hu
    by_cases hlt : u < w.comps.length
    · rw [List.getElem?_append_left hlt] at hu
      exact h.comps u su hu hut p hp q hq
    · rw [List.getElem?_append_right (by omega)] at hu
      obtain ⟨_, rfl⟩ := List.getElem?_eq_some_iff.mp hu
      simp at hq
  | @append2 u f r c d su hu hf hr =>
    have := pair (c, d) [] hu hc (fun p hp => ⟨(h.arrs p hp _ (List.mem_of_getElem? hf)).1, (h.arrs p hp _ (List.mem_of_getElem? hf)).2,
      (h.arrs p hp _ (List.mem_of_getElem? hr)).1, (h.arrs p hp _ (List.mem_of_getElem? hr)).2⟩)
    rw [List.append_nil] at this
    exact this
  | @append1 u f c su m hu hf hm =>
    exact pair (c, _) [m] hu hc (fun p hp => ⟨(h.arrs p hp _ (List.mem_of_getElem? hf)).1, (h.arrs p hp _ (List.mem_of_getElem? hf)).2,
      (hnew _ le_rfl p hp).1, (hnew _ le_rfl p hp).2⟩)
  | @callNone u op hu =>
    refine ⟨s, h, ?_⟩
    have : u ≠ t := by rintro rfl; rw [h.at_] at hu; cases hu
    simp [callOf, this, runT]
  | @callErr u op su hu ho =>
    refine ⟨s, h, ?_⟩
    by_cases e : u = t
    · subst e
      rw [h.at_] at hu; cases hu
      simp [callOf, runT, ho]
    · simp [callOf, e, runT]
  | @call u op su f r hu ho =>
    by_cases e : u = t
    · subst e
      rw [h.at_] at hu; cases hu
      refine ⟨s ++ [(w.heap.length, w.heap.length + 1)], ⟨?_, ?_, ?_⟩, ?_⟩
      · exact set_get h.at_ _
      · intro p hp q hq
        simp only [List.mem_append, List.mem_singleton] at hp
        have := hw.arrs q hq
        rcases hp with hp | rfl
        · exact h.arrs p hp q hq
        · simp only; omega
      · intro v sv hv hvt p hp x hx
        simp only [World.addNew, World.addPair] at hv
        rw [List.getElem?_set, if_neg (Ne.symm hvt)] at hv
        have := hw.comps sv (List.mem_of_getElem? hv) x hx
        simp only [List.mem_append, List.mem_singleton] at hp
        rcases hp with hp | rfl
        · exact h.comps v sv hv hvt p hp x hx
        · simp only; omega
      · simp only [callOf, if_true, runT, List.foldl_cons, List.foldl_nil, ho, World.addNew, World.addPair]
        have e1 : cell (w.heap ++ [f, r]) w.heap.length = f := cell_last _ _ _
        have e2 : cell (w.heap ++ [f, r]) (w.heap.length + 1) = r := by simp [cell]
        have e3 := view_append (t := [f, r]) hs
        unfold view at e3 ⊢
        simp [e1, e2, e3]
    · have h1 := fun p hp => hnew w.heap.length le_rfl p hp
      have h2 := fun p hp => hnew (w.heap.length + 1) (by omega) p hp
      have := pair (w.heap.length, w.heap.length + 1) [f, r] hu e
        (fun p hp => ⟨(h1 p hp).1, (h1 p hp).2, (h2 p hp).1, (h2 p hp).2⟩)
      simp only [callOf, e, if_false]
      exact this

theorem private_run {w : World α} (hw : w.Ok) {t : ℕ} {s} (h : Private w t s) (cs : List (Cmd α)) (hc : Guarded inv svd t w cs) :
    look (w.run inv svd cs) t = some (runT inv svd (view w.heap s) (callsOn t cs)) := by
  induction cs generalizing w s with
  | nil => rw [World.run, List.foldl_nil, look, h.at_]; rfl
  | cons c cs ih =>
    obtain ⟨s', h1, h2⟩ := private_step hw h c cs hc
    have := ih (step_ok inv svd hw c) h1 hc.2
    show look ((w.step inv svd c).run inv svd cs) t = _
    rw [this, callsOn_cons, h2]
    simp [runT, List.foldl_append]

end TM

/-- C96.  A new transform that is given no arrays to keep, and of which no matrix of a single transform is asked for, is its own: it is
what the calls of its methods have made it, whatever else the program does, including assignments. -/
theorem C96_private {w : World α} (hw : Reached inv svd w) (cs : List (Cmd α))
    (hc : Guarded inv svd w.comps.length (w.step inv svd .new) cs) :
    look ((w.step inv svd .new).run inv svd cs) w.comps.length = some (runT inv svd [] (callsOn w.comps.length cs)) := by
  have hk := hw.ok
  exact private_run (step_ok inv svd hk .new) (s := []) ⟨by simp [World.step], by simp, by simp⟩ cs hc

/-- C96.  So it undoes what it does, as in C53. -/
theorem C96_roundtrip {inv : Mat 4 4 ℝ → PyM (Mat 4 4 ℝ)} (hinv : InvSpec inv) {svd : Svd3 ℝ} {w : World ℝ} (hw : Reached inv svd w)
    (cs : List (Cmd ℝ)) (hc : Guarded inv svd w.comps.length (w.step inv svd .new) cs)
    (hops : ∀ op ∈ callsOn w.comps.length cs, Reversible op) (r : Option (Option ℤ × Option ℤ)) (ps : List (V3 ℝ)) :
    ∃ st out, look ((w.step inv svd .new).run inv svd cs) w.comps.length = some st ∧ callT st (pts ps) r false = .ok out ∧
      callT st out r true = .ok (pts ps) := by
  obtain ⟨out, _, h1, h2, _⟩ := C53_roundtrip inv hinv svd _ hops r ps
  exact ⟨_, out, C96_private hw cs hc, h1, h2⟩

/-- C96.  The matrix of no transforms, or of more than one, is new: assigning into it changes no transform and no other array. -/
theorem C96_fresh {w : World α} (hw : Reached inv svd w) (t : ℕ) (st) (h : look w t = some st) (range rev)
    (hs : (select st range).length ≠ 1) (i j : ℕ) (x : α) :
    (∀ u su, look w u = some su →
      look ((w.step inv svd (.matrixFor t range rev)).step inv svd (.write w.arrs.length i j x)) u = some su) ∧
    (∀ k m, entries w k = some m →
      entries ((w.step inv svd (.matrixFor t range rev)).step inv svd (.write w.arrs.length i j x)) k = some m) := by
  have hk := hw.ok
  obtain ⟨s, h1, rfl⟩ := look_some h
  generalize hm : Geometry.matrixFor (view w.heap s) range rev = m
  have e : w.step inv svd (.matrixFor t range rev) = w.addArray m := by
    simp only [World.step, h1, World.matrixOf]
    split
    · rename_i p hp
      exfalso
      apply hs
      unfold view
      rw [select_map, hp]; rfl
    · rw [hm]
  rw [e]
  have hh : ∃ hp, (w.addArray m).step inv svd (.write w.arrs.length i j x) = { w.addArray m with heap := hp } ∧
      ∀ d, d < w.heap.length → cell hp d = cell w.heap d := by
    simp only [World.step, World.addArray, List.getElem?_concat_length]
    split
    · refine ⟨_, rfl, fun d hd => ?_⟩
      rw [cell_set (by simp [Ref.cell]), if_neg (by simp only [Ref.cell]; omega), cell_append hd]
    · exact ⟨_, rfl, fun d hd => cell_append hd⟩
  obtain ⟨hp, e, hh⟩ := hh
  rw [e]
  refine ⟨?_, ?_⟩
  · intro u su hu
    obtain ⟨s', h2, rfl⟩ := look_some hu
    have := hk.comps s' (List.mem_of_getElem? h2)
    simp only [look, World.addArray, h2, Option.map_some]
    congr 1
    unfold view
    apply List.map_congr_left
    intro p hp
    rw [hh _ (this p hp).1, hh _ (this p hp).2]
  · intro k m' hk'
    obtain ⟨c, h2, rfl⟩ := entries_some hk'
    have := hk.arrs _ (List.mem_of_getElem? h2)
    rw [entries_eq (c := c) (by simp only [World.addArray]; exact getElem?_append_some h2), hh c this]

/-- C96.  Witness: a translation by 1 along x; its matrix is asked for and an entry of that assigned.  Now the transform moves by 5
and its reverse still by -1, so that the origin does not come back to itself. -/
theorem C96_reverse_broken (inv : Mat 4 4 ℝ → PyM (Mat 4 4 ℝ)) (svd : Svd3 ℝ) :
    ∃ st, look ((start ℝ).run inv svd [.new, .call 0 (.translate ⟨1, 0, 0⟩), .matrixFor 0 none false, .write 0 0 3 5]) 0 = some st ∧
      callT st (pts [⟨0, 0, 0⟩]) none false = .ok (pts [⟨5, 0, 0⟩]) ∧
      callT st (pts [⟨5, 0, 0⟩]) none true = .ok (pts [⟨4, 0, 0⟩]) := by
  refine ⟨[(translation44 ⟨5, 0, 0⟩, translation44 (-⟨1, 0, 0⟩))], ?_, ?_, ?_⟩
  · have e : setEntry (translation44 (⟨1, 0, 0⟩ : V3 ℝ)) 0 3 5 = translation44 ⟨5, 0, 0⟩ := by
      ext a b
      fin_cases a <;> fin_cases b <;> simp [setEntry, translation44]
    simp [World.run, World.step, start, stepT, translateT, Geometry.append4, view, World.addNew, World.addPair, World.matrixOf, select,
      look, Ref.size, Ref.cell, cell, e]
  · unfold callT
    rw [matrixFor_fwd]
    simp only [selected, List.map_cons, List.map_nil, List.reverse_singleton, List.prod_singleton]
    rw [applyMatrix_affine (affine_translation44 _)]
    simp only [List.map_cons, List.map_nil, affMap_translation44]
    congr 3
    ext <;> simp
  · unfold callT
    rw [matrixFor_rev]
    simp only [selected, List.map_cons, List.map_nil, List.prod_singleton]
    rw [applyMatrix_affine (affine_translation44 _)]
    simp only [List.map_cons, List.map_nil, affMap_translation44]
    congr 3
    ext <;> simp
    norm_num

/-- a history that meets the hypotheses of `C96_private` and `C96_roundtrip`: a matrix made by the program is assigned to and kept by
another transform, and a matrix of two transforms is asked for and assigned to -/
example (inv : Mat 4 4 ℝ → PyM (Mat 4 4 ℝ)) (svd : Svd3 ℝ) :
    let cs : List (Cmd ℝ) := [.call 0 (.translate ⟨1, 0, 0⟩), .call 0 (.translate ⟨0, 2, 0⟩), .matrixFor 0 none false,
      .write 0 0 3 5, .new, .append4 1 0 (some 0)]
    Guarded inv svd 0 ((start ℝ).step inv svd .new) cs ∧ ∀ op ∈ callsOn 0 cs, Reversible op := by
  refine ⟨⟨trivial, trivial, ?_, trivial, trivial, by simp, trivial⟩, by simp [callsOn, Reversible]⟩
  intro _ st h
  simp [World.step, start, stepT, translateT, Geometry.append4, view, World.addNew, World.addPair, look] at h
  simp [select, ← h]

end Blmath.Props
