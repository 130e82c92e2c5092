import Verif.Proofs.PolylineMemory

/-!
Property C92: polylines that share memory with arrays and with each other.
-/

namespace Blmath.Props
open Blmath.Geometry Blmath.Geometry.Mem Blmath.Spec Blmath.Proofs

variable {α : Type} [Num α]
set_option linter.unusedSectionVars false

/-- a program before its first command -/
def start (α : Type) : World α := ⟨[], [], []⟩

/-- what a polyline looks like -/
def look (w : World α) (p : ℕ) : Option (Polyline α) := w.polys[p]?.map (Obj.view w.heap)

/-- number of columns and entries of an array -/
def entries (w : World α) (k : ℕ) : Option (ℕ × List (List α)) := w.arrs[k]?.map fun a => (a.ncols, a.rows w.heap)

/-- the polyline a command is carried out on, if it changes one -/
def receiver : Cmd α → Option ℕ
  | .setV p _ | .setClosed p _ | .flip p | .partition p _ => some p
  | _ => none

/-- the command gives the polyline `p` another array -/
def Reassigns (p : ℕ) : Cmd α → Prop
  | .setV q _ | .flip q | .partition q _ => p = q
  | _ => False

/-- the command is an assignment into an array -/
def IsWrite : Cmd α → Prop
  | .write .. => True
  | _ => False

/-- the command changes the polyline `p` or hands out its array -/
def Touches (p : ℕ) : Cmd α → Prop
  | .setV q _ | .setClosed q _ | .flip q | .partition q _ | .takeV q => p = q
  | _ => False

theorem run_ok {w : World α} (hw : w.Ok) (cs : List (Cmd α)) : (w.run cs).Ok := by
  induction cs generalizing w with
  | nil => exact hw
  | cons c cs ih => exact ih (step_ok hw c)

theorem reached_ok (cs : List (Cmd α)) : ((start α).run cs).Ok :=
  run_ok ⟨fun _ h => (by cases h), fun _ h => (by cases h)⟩ cs

theorem look_some {w : World α} {p : ℕ} {q : Polyline α} (h : look w p = some q) :
    ∃ o, w.polys[p]? = some o ∧ o.view w.heap = q := Option.map_eq_some_iff.mp h

theorem entries_some {w : World α} {k n : ℕ} {rows : List (List α)} (h : entries w k = some (n, rows)) :
    ∃ a, w.arrs[k]? = some a ∧ a.ncols = n ∧ a.rows w.heap = rows := by
  obtain ⟨a, h1, h2⟩ := Option.map_eq_some_iff.mp h
  cases h2
  exact ⟨a, h1, rfl, rfl⟩

theorem mutate_look {w : World α} {p : ℕ} {o : Obj} (hp : w.polys[p]? = some o) {r : Heap α × Obj × PyM Unit}
    {q : Polyline α × PyM Unit} (hr : Refines w.heap r q) :
    look (w.mutate p r).1 p = some q.1 ∧ (w.mutate p r).2 = PolyOp.run.errOf q.2 := by
  have hl : p < w.polys.length := (List.getElem?_eq_some_iff.mp hp).1
  refine ⟨?_, ?_⟩
  · simp [look, World.mutate, List.getElem?_set, hl, hr.view]
  · simp only [World.mutate, hr.res]
    cases q.2 <;> rfl

theorem add_look {w : World α} {r : Heap α × PyM Obj} {q : PyM (Polyline α)} (hr : Makes w.heap r q) :
    (∀ x, q = .ok x → (w.add r).2 = none ∧ look (w.add r).1 w.polys.length = some x) ∧
    (∀ e, q = .error e → (w.add r).2 = some e ∧ look (w.add r).1 w.polys.length = none) := by
  obtain ⟨h, r⟩ := r
  have := hr.view
  simp only at this
  constructor
  · intro x hx
    rw [hx] at this
    cases r with
    | error e => cases this
    | ok o =>
      cases this
      simp [World.add, look]
  · intro e he
    rw [he] at this
    cases r with
    | error e' => cases this; simp [World.add, look]
    | ok o => cases this

/-- C92.  In every program the methods do to the polyline they are called on what C34–C40 say, the array given being
read at the time of the call; and constructors and methods returning polylines return what they say. -/
theorem C92_methods (cs : List (Cmd α)) (p : ℕ) (q : Polyline α) (hq : look ((start α).run cs) p = some q) :
    let w := (start α).run cs
    let does := fun (c : Cmd α) (op : PolyOp α) => look (w.step c).1 p = some (op.run q).1 ∧ (w.step c).2 = (op.run q).2
    let gives := fun (c : Cmd α) (r : PyM (Polyline α)) =>
      (∀ x, r = .ok x → (w.step c).2 = none ∧ look (w.step c).1 w.polys.length = some x) ∧
      (∀ e, r = .error e → (w.step c).2 = some e ∧ look (w.step c).1 w.polys.length = none)
    (∀ x, does (.setV p (.data x)) (.setV x)) ∧
    (∀ k n rows, entries w k = some (n, rows) → does (.setV p (.arr k)) (.setV (.mat n rows))) ∧
    (∀ b, does (.setClosed p b) (.setClosed b)) ∧ does (.flip p) .flip ∧ (∀ l, does (.partition p l) (.partition l)) ∧
    gives (.copy p) q.copy ∧ (∀ i, gives (.reindexed p i) ((q.reindexed i).map Prod.fst)) ∧
    (∀ pl, gives (.cut p pl) (q.cutByPlane pl)) := by
  have hw := reached_ok cs
  generalize (start α).run cs = w at *
  obtain ⟨o, ho, rfl⟩ := look_some hq
  have hok := hw.polys o (List.mem_of_getElem? ho)
  refine ⟨?_, ?_, ?_, ?_, ?_, ?_, ?_, ?_⟩
  · intro x
    have := mutate_look ho (setV_refines hok (arg := .data x) trivial)
    simp only [World.step, ho, World.resolve, PolyOp.run]
    exact this
  · intro k n rows hk
    obtain ⟨a, ha, rfl, rfl⟩ := entries_some hk
    have := mutate_look ho (setV_refines hok (arg := .arr a) (hw.arrs a (List.mem_of_getElem? ha)))
    simp only [World.step, ho, World.resolve, ha, Option.map_some, PolyOp.run]
    exact this
  · intro b
    have := mutate_look ho (setClosed_refines hok b)
    simp only [World.step, ho, PolyOp.run]
    exact this
  · have := mutate_look ho (flip_refines hok)
    simp only [World.step, ho, PolyOp.run]
    exact this
  · intro l
    have := mutate_look ho (partition_refines hok l)
    simp only [World.step, ho, PolyOp.run]
    refine ⟨this.1, this.2.trans ?_⟩
    cases ((o.view w.heap).partitionByLength l).2 <;> rfl
  · have := add_look (copy_makes hok)
    simp only [World.step, ho]
    exact this
  · intro i
    have := add_look (fresh_makes w.heap (((o.view w.heap).reindexed i).map Prod.fst))
    simp only [World.step, ho]
    exact this
  · intro pl
    have := add_look (fresh_makes w.heap ((o.view w.heap).cutByPlane pl))
    simp only [World.step, ho]
    exact this

/-- C92.  `Polyline(...)` in a program. -/
theorem C92_constructor (cs : List (Cmd α)) (closed : Bool) :
    let w := (start α).run cs
    let gives := fun (c : Cmd α) (r : PyM (Polyline α)) =>
      (∀ x, r = .ok x → (w.step c).2 = none ∧ look (w.step c).1 w.polys.length = some x) ∧
      (∀ e, r = .error e → (w.step c).2 = some e ∧ look (w.step c).1 w.polys.length = none)
    (∀ x, gives (.poly (.data x) closed) (Polyline.new x closed)) ∧
    (∀ k n rows, entries w k = some (n, rows) → gives (.poly (.arr k) closed) (Polyline.new (.mat n rows) closed)) := by
  have hw := reached_ok cs
  generalize (start α).run cs = w at *
  refine ⟨?_, ?_⟩
  · intro x
    have := add_look (new_makes (h := w.heap) (arg := .data x) trivial closed)
    simp only [World.step, World.resolve]
    exact this
  · intro k n rows hk
    obtain ⟨a, ha, rfl, rfl⟩ := entries_some hk
    have := add_look (new_makes (h := w.heap) (arg := .arr a) (hw.arrs a (List.mem_of_getElem? ha)) closed)
    simp only [World.step, World.resolve, ha, Option.map_some]
    exact this

/-- memory only grows, arrays keep their names, and polylines other than the receiver are the same objects -/
structure Grows (c : Cmd α) (w w' : World α) : Prop where
  heap : ¬ IsWrite c → w.heap <+: w'.heap
  arrs : w.arrs <+: w'.arrs
  polys : ∀ q o, receiver c ≠ some q → w.polys[q]? = some o → w'.polys[q]? = some o

theorem Grows.refl (c : Cmd α) (w : World α) : Grows c w w := ⟨fun _ => List.prefix_rfl, List.prefix_rfl, fun _ _ _ h => h⟩

theorem grows_mutate {c : Cmd α} {w : World α} {p : ℕ} (hc : receiver c = some p) {r : Heap α × Obj × PyM Unit}
    {q : Polyline α × PyM Unit} (hr : Refines w.heap r q) : Grows c w (w.mutate p r).1 := by
  refine ⟨fun _ => hr.pre, List.prefix_rfl, ?_⟩
  intro k o hk ho
  have : p ≠ k := fun h => hk (h ▸ hc)
  simp only [World.mutate, List.getElem?_set_ne this, ho]

theorem grows_add {c : Cmd α} {w : World α} {r : Heap α × PyM Obj} {q : PyM (Polyline α)} (hr : Makes w.heap r q) :
    Grows c w (w.add r).1 := by
  unfold World.add
  split
  · refine ⟨fun _ => hr.pre, List.prefix_rfl, ?_⟩
    intro k o _ ho
    have hl : k < w.polys.length := (List.getElem?_eq_some_iff.mp ho).1
    simp only [List.getElem?_append_left hl, ho]
  · exact ⟨fun _ => hr.pre, List.prefix_rfl, fun k o _ ho => ho⟩

theorem step_grows {w : World α} (hw : w.Ok) (c : Cmd α) : Grows c w (w.step c).1 := by
  cases c with
  | array n rows => exact ⟨fun _ => alloc_prefix w.heap n rows, List.prefix_append .., fun _ _ _ h => h⟩
  | slice k i j =>
    simp only [World.step]
    split
    · exact .refl ..
    · exact ⟨fun _ => List.prefix_rfl, List.prefix_append .., fun _ _ _ h => h⟩
  | write k i j x =>
    simp only [World.step]
    split
    · exact .refl ..
    · split
      · exact ⟨fun h => absurd trivial h, List.prefix_rfl, fun _ _ _ h => h⟩
      · exact .refl ..
  | takeV p =>
    simp only [World.step]
    split
    · exact .refl ..
    · split
      · exact .refl ..
      · exact ⟨fun _ => List.prefix_rfl, List.prefix_append .., fun _ _ _ h => h⟩
  | poly arg closed =>
    simp only [World.step]
    split
    · exact .refl ..
    · rename_i arg' ha
      exact grows_add (new_makes (resolve_ok hw ha) closed)
  | setV p arg =>
    simp only [World.step]
    split
    · rename_i o arg' ho ha
      exact grows_mutate rfl (setV_refines (hw.polys o (List.mem_of_getElem? ho)) (resolve_ok hw ha))
    · exact .refl ..
  | setClosed p b =>
    simp only [World.step]
    split
    · exact .refl ..
    · rename_i o ho
      exact grows_mutate rfl (setClosed_refines (hw.polys o (List.mem_of_getElem? ho)) b)
  | flip p =>
    simp only [World.step]
    split
    · exact .refl ..
    · rename_i o ho
      exact grows_mutate rfl (flip_refines (hw.polys o (List.mem_of_getElem? ho)))
  | partition p l =>
    simp only [World.step]
    split
    · exact .refl ..
    · rename_i o ho
      exact grows_mutate rfl (partition_refines (hw.polys o (List.mem_of_getElem? ho)) l)
  | copy p =>
    simp only [World.step]
    split
    · exact .refl ..
    · rename_i o ho
      exact grows_add (copy_makes (hw.polys o (List.mem_of_getElem? ho)))
  | reindexed p i =>
    simp only [World.step]
    split
    · exact .refl ..
    · exact grows_add (fresh_makes ..)
  | cut p pl =>
    simp only [World.step]
    split
    · exact .refl ..
    · exact grows_add (fresh_makes ..)

theorem getElem?_of_prefix {β : Type} {l l' : List β} (h : l <+: l') {k : ℕ} {x : β} (hk : l[k]? = some x) : l'[k]? = some x := by
  obtain ⟨t, rfl⟩ := h
  rw [List.getElem?_append_left (List.getElem?_eq_some_iff.mp hk).1, hk]

/-- C92.  No method of a polyline, and no other command except an assignment into an array, changes the entries of any array
or the looks of any polyline other than the one the method was called on, whatever they share. -/
theorem C92_frame (cs : List (Cmd α)) (c : Cmd α) (hc : ¬ IsWrite c) :
    let w := (start α).run cs
    (∀ k x, entries w k = some x → entries (w.step c).1 k = some x) ∧
    (∀ q x, receiver c ≠ some q → look w q = some x → look (w.step c).1 q = some x) := by
  have hw := reached_ok cs
  generalize (start α).run cs = w at *
  have hg := step_grows hw c
  constructor
  · rintro k ⟨n, rows⟩ hk
    obtain ⟨a, ha, rfl, rfl⟩ := entries_some hk
    simp only [entries, getElem?_of_prefix hg.arrs ha, Option.map_some]
    rw [rows_ext (hw.arrs a (List.mem_of_getElem? ha)).1 (hg.heap hc)]
  · intro q x hr hq
    obtain ⟨o, ho, rfl⟩ := look_some hq
    simp only [look, hg.polys q o hr ho, Option.map_some]
    rw [view_ext (hw.polys o (List.mem_of_getElem? ho)) (hg.heap hc)]

/-! #### sharing -/

theorem mutate_v {w : World α} {p q : ℕ} {o : Obj} {a : Arr} {r : Heap α × Obj × PyM Unit} (ho : w.polys[p]? = some o) (hv : o.v = some a)
    (hr : p = q → r.2.1.v = some a) : ∃ o', (w.mutate q r).1.polys[p]? = some o' ∧ o'.v = some a := by
  by_cases h : q = p
  · subst h
    have hl : q < w.polys.length := (List.getElem?_eq_some_iff.mp ho).1
    exact ⟨r.2.1, by simp [World.mutate, hl], hr rfl⟩
  · exact ⟨o, by simp only [World.mutate, List.getElem?_set_ne h, ho], hv⟩

/-- a polyline whose `v` is not assigned keeps its array object -/
theorem step_keeps {w : World α} (hw : w.Ok) {c : Cmd α} {p : ℕ} (hc : ¬ Reassigns p c) {a : Arr}
    (h : ∃ o, w.polys[p]? = some o ∧ o.v = some a) : ∃ o, (w.step c).1.polys[p]? = some o ∧ o.v = some a := by
  obtain ⟨o, ho, hv⟩ := h
  by_cases hr : receiver c = some p
  · cases c with
    | setV q arg => cases hr; exact absurd rfl hc
    | flip q => cases hr; exact absurd rfl hc
    | partition q l => cases hr; exact absurd rfl hc
    | setClosed q b =>
      cases hr
      simp only [World.step, ho]
      refine mutate_v ho hv fun _ => ?_
      rw [(updateEdges_v _).1]
      exact hv
    | array n rows => cases hr
    | slice k i j => cases hr
    | write k i j x => cases hr
    | takeV q => cases hr
    | poly arg closed => cases hr
    | copy q => cases hr
    | reindexed q i => cases hr
    | cut q pl => cases hr
  · exact ⟨o, (step_grows hw c).polys p o hr ho, hv⟩

theorem run_keeps {w : World α} (hw : w.Ok) {p : ℕ} {a : Arr} (h : ∃ o, w.polys[p]? = some o ∧ o.v = some a) (cs : List (Cmd α))
    (hc : ∀ c ∈ cs, ¬ Reassigns p c) : ∃ o, (w.run cs).polys[p]? = some o ∧ o.v = some a := by
  induction cs generalizing w with
  | nil => exact h
  | cons c cs ih =>
    exact ih (step_ok hw c) (step_keeps hw (hc c (List.mem_cons_self ..)) h) fun c' h' => hc c' (List.mem_cons_of_mem _ h')

theorem run_arrs {w : World α} (hw : w.Ok) {k : ℕ} {a : Arr} (h : w.arrs[k]? = some a) (cs : List (Cmd α)) :
    (w.run cs).arrs[k]? = some a := by
  induction cs generalizing w with
  | nil => exact h
  | cons c cs ih => exact ih (step_ok hw c) (getElem?_of_prefix (step_grows hw c).arrs h)

theorem coerceArr_of {h : Heap α} {a : Arr} (hn : a.ncols = 3) (hr : ∀ r ∈ a.rows h, r.length = 3)
    (hf : ∀ r ∈ a.rows h, ∀ x ∈ r, npIsNan x = false ∧ npIsInf x = false) : coerceArr h a = .ok a := by
  unfold coerceArr
  rw [if_neg, if_pos hn, if_pos]
  · rw [List.all_eq_true]
    intro r h1
    simpa using hr _ (List.mem_map_of_mem h1)
  · simp only [List.any_eq_true, not_exists, not_and, Bool.or_eq_true]
    rintro r h1 x h2
    simp [hf r h1 x h2]

/-- the array named `k` and the vertices of the polyline named `p` are one array -/
theorem same_array {w : World α} (hw : w.Ok) {k p : ℕ} {a : Arr} (hk : w.arrs[k]? = some a) (h3 : a.ncols = 3) (hl : ∀ r ∈ a.cells, r.length = 3)
    (hp : ∃ o, w.polys[p]? = some o ∧ o.v = some a) (cs : List (Cmd α)) (hc : ∀ c ∈ cs, ¬ Reassigns p c) :
    ∃ q vs, look (w.run cs) p = some q ∧ q.v = some vs ∧ entries (w.run cs) k = some (3, vs.map V3.toList) := by
  obtain ⟨o, ho, hv⟩ := run_keeps hw hp cs hc
  refine ⟨o.view (w.run cs).heap, a.points (w.run cs).heap, by simp [look, ho], by simp [Obj.view, hv], ?_⟩
  rw [entries, run_arrs hw hk cs, points_rows hl]
  simp [h3]

/-- C92.  A polyline made from an array of floats with three columns does not copy it: whatever the program does then,
as long as it does not assign `v`, flip or partition the polyline, the vertices of the polyline are the rows of the
array as they are at that time. -/
theorem C92_shared (cs : List (Cmd α)) (k : ℕ) (rows : List (List α)) (hk : entries ((start α).run cs) k = some (3, rows))
    (hr : ∀ r ∈ rows, r.length = 3) (hf : ∀ r ∈ rows, ∀ x ∈ r, npIsNan x = false ∧ npIsInf x = false) (closed : Bool)
    (hne : closed = true → rows ≠ []) (cs' : List (Cmd α)) :
    let w := (start α).run cs
    (∀ c ∈ cs', ¬ Reassigns w.polys.length c) →
    (w.step (.poly (.arr k) closed)).2 = none ∧
    ∃ q vs, look ((w.step (.poly (.arr k) closed)).1.run cs') w.polys.length = some q ∧ q.v = some vs ∧
      entries ((w.step (.poly (.arr k) closed)).1.run cs') k = some (3, vs.map V3.toList) := by
  have hw := reached_ok cs
  generalize (start α).run cs = w at *
  intro w' hc
  obtain ⟨a, ha, hn, rfl⟩ := entries_some hk
  have hco := coerceArr_of hn hr hf
  have hl : ∀ r ∈ a.cells, r.length = 3 := fun r h1 => by simpa using hr _ (List.mem_map_of_mem h1)
  have hnew : ∃ o, Obj.new w.heap (.arr a) closed = (w.heap, .ok o) ∧ o.v = some a := by
    have hm : ∃ e, mkEdges a.cells.length closed = .ok e := by
      refine ⟨_, mkEdges_eq _ _ ?_⟩
      intro h1 h2
      exact hne h1 (by simpa [Arr.rows] using List.length_eq_zero_iff.mp h2)
    obtain ⟨e, hm⟩ := hm
    refine ⟨⟨some a, closed, some e⟩, ?_, rfl⟩
    simp [Obj.new, Obj.setV, coerce, hco, Except.map, Obj.updateEdges, hm]
  obtain ⟨o, hnew, hv⟩ := hnew
  have hstep : w.step (.poly (.arr k) closed) = ({ w with polys := w.polys ++ [o] }, none) := by
    simp [World.step, World.resolve, ha, hnew, World.add]
  have hok := step_ok hw (.poly (.arr k) closed)
  rw [show w' = w from rfl, hstep] at *
  refine ⟨rfl, ?_⟩
  exact same_array hok (k := k) (p := w.polys.length) (a := a) ha hn hl ⟨o, by simp, hv⟩ cs' hc

/-- C92.  The array a program gets by reading `v` is the one the polyline uses. -/
theorem C92_read (cs : List (Cmd α)) (p : ℕ) (q : Polyline α) (vs : List (V3 α)) (hq : look ((start α).run cs) p = some q)
    (hv : q.v = some vs) (cs' : List (Cmd α)) (hc : ∀ c ∈ cs', ¬ Reassigns p c) :
    let w := (start α).run cs
    ∃ q' vs', look ((w.step (.takeV p)).1.run cs') p = some q' ∧ q'.v = some vs' ∧
      entries ((w.step (.takeV p)).1.run cs') w.arrs.length = some (3, vs'.map V3.toList) := by
  have hw := reached_ok cs
  generalize (start α).run cs = w at *
  intro w'
  obtain ⟨o, ho, rfl⟩ := look_some hq
  have hok := step_ok hw (.takeV p)
  cases hov : o.v with
  | none => rw [Obj.view, hov] at hv; cases hv
  | some a =>
    have h3 := hw.polys o (List.mem_of_getElem? ho) a hov
    have hstep : w.step (.takeV p) = ({ w with arrs := w.arrs ++ [a] }, none) := by
      simp [World.step, ho, hov]
    rw [hstep] at hok
    rw [show w' = w from rfl, hstep]
    exact same_array hok (k := w.arrs.length) (a := a) (by simp) h3.2.1 h3.2.2 ⟨o, ho, hov⟩ cs' hc

/-- C92.  `flip` does not copy either: if the vertices of a polyline are the rows of an array, they are the rows of that array in
reverse after `flip`, and stay so. -/
theorem C92_flip (cs : List (Cmd α)) (p k : ℕ) (closed : Bool) (rows : List (List α)) (hk : entries ((start α).run cs) k = some (3, rows))
    (hr : ∀ r ∈ rows, r.length = 3) (hf : ∀ r ∈ rows, ∀ x ∈ r, npIsNan x = false ∧ npIsInf x = false)
    (hne : closed = true → rows ≠ []) (hp : p = ((start α).run cs).polys.length) (cs' : List (Cmd α))
    (hc : ∀ c ∈ cs', ¬ Reassigns p c) :
    let w := ((((start α).run cs).step (.poly (.arr k) closed)).1.step (.flip p)).1.run cs'
    ∃ q vs, look w p = some q ∧ q.v = some vs ∧ entries w k = some (3, (vs.map V3.toList).reverse) := by
  have hw := reached_ok cs
  generalize (start α).run cs = w at *
  subst hp
  obtain ⟨a, ha, hn, rfl⟩ := entries_some hk
  have hco := coerceArr_of hn hr hf
  have hl : ∀ r ∈ a.cells, r.length = 3 := fun r h1 => by simpa using hr _ (List.mem_map_of_mem h1)
  have hcf : coerceArr w.heap a.flipud = .ok a.flipud := by
    refine coerceArr_of hn ?_ ?_
    · intro r h1
      exact hr r (by simpa [Arr.flipud, Arr.rows] using h1)
    · intro r h1
      exact hf r (by simpa [Arr.flipud, Arr.rows] using h1)
  have hm : ∃ e, mkEdges a.cells.length closed = .ok e := by
    refine ⟨_, mkEdges_eq _ _ ?_⟩
    intro h1 h2
    exact hne h1 (by simpa [Arr.rows] using List.length_eq_zero_iff.mp h2)
  obtain ⟨e, hm⟩ := hm
  have hm' : mkEdges a.flipud.cells.length closed = .ok e := by simpa [Arr.flipud] using hm
  have hstep : w.step (.poly (.arr k) closed) = (⟨w.heap, w.arrs, w.polys ++ [⟨some a, closed, some e⟩]⟩, none) := by
    simp [World.step, World.resolve, ha, World.add, Obj.new, Obj.setV, coerce, hco, Except.map, Obj.updateEdges, hm]
  have hok := step_ok hw (.poly (.arr k) closed)
  rw [hstep] at hok
  have hok2 := step_ok hok (.flip w.polys.length)
  have hstep2 : World.step (⟨w.heap, w.arrs, w.polys ++ [⟨some a, closed, some e⟩]⟩ : World α) (.flip w.polys.length) =
      (⟨w.heap, w.arrs, (w.polys ++ [(⟨some a, closed, some e⟩ : Obj)]).set w.polys.length ⟨some a.flipud, closed, some e⟩⟩, none) := by
    simp only [World.step, List.getElem?_append_right (Nat.le_refl _), Nat.sub_self, List.getElem?_cons_zero, Obj.flip, Obj.setV, coerce,
      hcf, Except.map, Obj.updateEdges, hm', World.mutate, Mem.errOf]
  simp only at hok2
  rw [hstep2] at hok2
  intro w''
  have hw'' : w'' = World.run (⟨w.heap, w.arrs, (w.polys ++ [(⟨some a, closed, some e⟩ : Obj)]).set w.polys.length
      ⟨some a.flipud, closed, some e⟩⟩ : World α) cs' := by
    simp only [w'', hstep, hstep2]
  obtain ⟨o, ho, hv⟩ := run_keeps hok2 (p := w.polys.length) (a := a.flipud) ⟨⟨some a.flipud, closed, some e⟩, by simp, rfl⟩ cs' hc
  have hka := run_arrs hok2 (k := k) (a := a) ha cs'
  rw [← hw''] at ho hka
  refine ⟨o.view w''.heap, a.flipud.points w''.heap, by simp only [look, ho, Option.map_some], by simp [Obj.view, hv], ?_⟩
  simp only [entries, hka, Option.map_some, hn]
  rw [points_rows (by intro r h1; exact hl r (by simpa [Arr.flipud] using h1))]
  simp [Arr.rows, Arr.flipud]

/-! #### assignments into arrays -/

theorem write_cell {h h' : Heap α} {a : Arr} (ha : a.Ok h) {i j c : ℕ} {x : α} {r : List ℕ} (hr : a.cells[i]? = some r) (hc : r[j]? = some c)
    (hw : write h a i j x = .ok h') (b k : ℕ) : cellAt h' b k = if b = a.buf ∧ k = c then x else cellAt h b k := by
  rw [write, hr] at hw
  simp only [hc, Except.ok.injEq] at hw
  subst hw
  have hlt := ha.2.1 r (List.mem_of_getElem? hr) c (List.mem_of_getElem? hc)
  simp only [cellAt, List.getElem?_modify]
  by_cases hb : a.buf = b
  · subst hb
    have h1 : a.buf < h.length := ha.1
    simp only [List.getElem?_eq_getElem h1, Option.map_eq_map, Option.map_some, if_true, Option.getD_some, true_and] at hlt ⊢
    rw [List.getElem?_set]
    by_cases hk : c = k
    · subst hk
      simp [hlt]
    · simp [hk, Ne.symm hk]
  · have : ¬ b = a.buf := fun h => hb h.symm
    simp only [hb, if_false, this, false_and]
    cases h[b]? <;> rfl

theorem nodup_cell {cells : List (List ℕ)} (hn : cells.flatten.Nodup) {i i' j j' c : ℕ} {r r' : List ℕ} (h1 : cells[i]? = some r)
    (h2 : cells[i']? = some r') (h3 : r[j]? = some c) (h4 : r'[j']? = some c) : i = i' ∧ j = j' := by
  rw [List.nodup_flatten] at hn
  have h5 : i = i' := by
    by_contra hne
    obtain ⟨l1, e1⟩ := List.getElem?_eq_some_iff.mp h1
    obtain ⟨l2, e2⟩ := List.getElem?_eq_some_iff.mp h2
    have hp := List.pairwise_iff_getElem.mp hn.2
    rcases Nat.lt_or_gt_of_ne hne with h | h
    · exact hp i i' l1 l2 h (e1 ▸ List.mem_of_getElem? h3) (e2 ▸ List.mem_of_getElem? h4)
    · exact hp i' i l2 l1 h (e2 ▸ List.mem_of_getElem? h4) (e1 ▸ List.mem_of_getElem? h3)
  subst h5
  rw [h1] at h2
  cases h2
  refine ⟨rfl, ?_⟩
  have hd := hn.1 r (List.mem_of_getElem? h1)
  obtain ⟨l3, e3⟩ := List.getElem?_eq_some_iff.mp h3
  obtain ⟨l4, e4⟩ := List.getElem?_eq_some_iff.mp h4
  exact (hd.getElem_inj_iff).mp (e3.trans e4.symm)

theorem write_rows {h h' : Heap α} {a : Arr} (ha : a.Ok h) {i j : ℕ} {x : α} {r : List α} (hr : (a.rows h)[i]? = some r)
    (hj : j < r.length) : ∃ h', write h a i j x = .ok h' ∧ a.rows h' = (a.rows h).set i (r.set j x) := by
  simp only [Arr.rows, List.getElem?_map, Option.map_eq_some_iff] at hr
  obtain ⟨s, hs, rfl⟩ := hr
  rw [List.length_map] at hj
  have hc : s[j]? = some s[j] := List.getElem?_eq_getElem hj
  have hw : ∃ h', write h a i j x = .ok h' := by
    simp only [write, hs, hc]
    exact ⟨_, rfl⟩
  obtain ⟨h', hw⟩ := hw
  refine ⟨h', hw, ?_⟩
  have hcell := write_cell ha hs hc hw
  simp only [Arr.rows]
  apply List.ext_getElem?
  intro m
  rw [List.getElem?_set]
  simp only [List.getElem?_map, List.length_map]
  have hil := (List.getElem?_eq_some_iff.mp hs).1
  by_cases hm : i = m
  · subst hm
    simp only [hs, Option.map_some, hil, if_true]
    congr 1
    apply List.ext_getElem?
    intro n
    rw [List.getElem?_set]
    simp only [List.getElem?_map, List.length_map]
    by_cases hn : j = n
    · subst hn
      simp [hc, hcell, hj]
    · simp only [hn, if_false]
      cases hsn : s[n]? with
      | none => rfl
      | some c =>
        simp only [Option.map_some, hcell]
        rw [if_neg]
        rintro ⟨-, rfl⟩
        exact hn (nodup_cell ha.2.2 hs hs hc hsn).2
  · simp only [hm, if_false]
    cases hsm : a.cells[m]? with
    | none => rfl
    | some t =>
      simp only [Option.map_some]
      congr 1
      apply List.map_congr_left
      intro c hct
      rw [hcell, if_neg]
      rintro ⟨-, rfl⟩
      obtain ⟨n, hn⟩ := List.getElem?_of_mem hct
      exact hm (nodup_cell ha.2.2 hs hsm hc hn).1

/-- C92.  `a[i, j] = x` sets that entry of the array and no other, and raises IndexError outside the array, changing nothing. -/
theorem C92_write (cs : List (Cmd α)) (k n i j : ℕ) (x : α) (rows : List (List α)) (hk : entries ((start α).run cs) k = some (n, rows)) :
    let w := (start α).run cs
    (∀ r, rows[i]? = some r → j < r.length →
      (w.step (.write k i j x)).2 = none ∧ entries (w.step (.write k i j x)).1 k = some (n, rows.set i (r.set j x))) ∧
    ((rows[i]? = none ∨ ∃ r, rows[i]? = some r ∧ r.length ≤ j) → w.step (.write k i j x) = (w, some .IndexError)) := by
  have hw := reached_ok cs
  generalize (start α).run cs = w at *
  obtain ⟨a, ha, rfl, rfl⟩ := entries_some hk
  have hok := hw.arrs a (List.mem_of_getElem? ha)
  refine ⟨?_, ?_⟩
  · intro r hr hj
    obtain ⟨h', hw', hrows⟩ := write_rows (h' := w.heap) hok (x := x) hr hj
    simp only [World.step, ha, hw', entries, Option.map_some, hrows, and_self]
  · intro h
    have : write w.heap a i j x = .error .IndexError := by
      unfold write
      simp only [Arr.rows, List.getElem?_map, Option.map_eq_none_iff, Option.map_eq_some_iff] at h
      rcases h with h | ⟨r, ⟨s, hs, rfl⟩, hj⟩
      · simp [h]
      · rw [List.length_map] at hj
        simp [hs, List.getElem?_eq_none hj]
    simp only [World.step, ha, this]

/-! #### independence -/

/-- no other name leads to the memory of the vertices of `q` -/
def Owns (w : World α) (q : ℕ) (o : Obj) : Prop :=
  w.polys[q]? = some o ∧ ∀ a, o.v = some a → (∀ b ∈ w.arrs, b.buf ≠ a.buf) ∧
    ∀ (p : ℕ) (o' : Obj) (b : Arr), p ≠ q → w.polys[p]? = some o' → o'.v = some b → b.buf ≠ a.buf

/-- where the array of a new or changed polyline comes from: nowhere else than new memory, an argument, or the old array -/
def FromOr (h : Heap α) (o : Obj) (P : ℕ → Prop) : Prop := ∀ b, o.v = some b → h.length ≤ b.buf ∨ P b.buf

theorem coerceArr_buf {h : Heap α} {a b : Arr} (hc : coerceArr h a = .ok b) : b.buf = a.buf := by
  unfold coerceArr at hc
  split at hc
  · cases hc
  · split at hc
    · split at hc <;> cases hc
      rfl
    · split at hc <;> cases hc
      rfl

/-- the memory of an argument -/
def argBuf : Arg α → ℕ → Prop
  | .arr a, b => a.buf = b
  | .data _, _ => False

theorem coerce_from {h : Heap α} {arg : Arg α} {v : Option Arr} (hc : (coerce h arg).2 = .ok v) (b : Arr) (hb : v = some b) :
    h.length ≤ b.buf ∨ argBuf arg b.buf := by
  subst hb
  match arg with
  | .arr a =>
    right
    simp only [coerce] at hc
    cases h1 : coerceArr h a with
    | error e => rw [h1] at hc; cases hc
    | ok b' => rw [h1] at hc; cases hc; exact (coerceArr_buf h1).symm
  | .data .none => cases hc
  | .data .other => cases hc
  | .data (.mat n rows) =>
    left
    simp only [coerce] at hc
    cases h1 : coerceArr (alloc h n rows).1 (alloc h n rows).2 with
    | error e => rw [h1] at hc; cases hc
    | ok b' => rw [h1] at hc; cases hc; rw [coerceArr_buf h1]; exact Nat.le_refl _

theorem setV_from (h : Heap α) (o : Obj) (arg : Arg α) :
    FromOr h (o.setV h arg).2.1 fun b => argBuf arg b ∨ ∃ a, o.v = some a ∧ a.buf = b := by
  intro b hb
  unfold Obj.setV at hb
  have hco := @coerce_from _ _ h arg
  generalize coerce h arg = c at *
  obtain ⟨h', c⟩ := c
  cases c with
  | error e => exact Or.inr (Or.inr ⟨b, hb, rfl⟩)
  | ok v =>
    simp only [(updateEdges_v _).1] at hb
    rcases hco rfl b hb with h1 | h1
    · exact Or.inl h1
    · exact Or.inr (Or.inl h1)

theorem new_from {h h' : Heap α} {arg : Arg α} {closed : Bool} {o : Obj} (hn : Obj.new h arg closed = (h', .ok o)) :
    FromOr h o (argBuf arg) := by
  have := setV_from h ⟨none, closed, none⟩ arg
  unfold Obj.new at hn
  generalize Obj.setV h ⟨none, closed, none⟩ arg = r at *
  obtain ⟨h1, o1, r⟩ := r
  cases r with
  | error e => cases hn
  | ok u =>
    cases hn
    intro b hb
    rcases this b hb with h2 | h2 | ⟨a, h2, -⟩
    · exact Or.inl h2
    · exact Or.inr h2
    · cases h2

theorem fresh_from {h h' : Heap α} {q : PyM (Polyline α)} {o : Obj} (hn : Obj.fresh h q = (h', .ok o)) :
    FromOr h o fun _ => False := by
  unfold Obj.fresh at hn
  cases q with
  | error e => cases hn
  | ok q =>
    cases hv : q.v with
    | none =>
      simp only [hv] at hn
      cases hn
      intro b hb
      cases hb
    | some v =>
      simp only [hv] at hn
      cases hn
      intro b hb
      cases hb
      exact Or.inl (Nat.le_refl _)

theorem copy_from {h h' : Heap α} {o o' : Obj} (hn : o.copy h = (h', .ok o')) : FromOr h o' fun _ => False := by
  unfold Obj.copy at hn
  cases hv : o.v with
  | none =>
    simp only [hv] at hn
    intro b hb
    rcases new_from hn b hb with h1 | h1
    · exact Or.inl h1
    · exact Or.inr h1
  | some a =>
    simp only [hv] at hn
    intro b hb
    rcases new_from hn b hb with h1 | h1
    · left
      exact le_trans (by simp [alloc]) h1
    · left
      exact le_of_eq h1

theorem owns_mutate {w : World α} {q p : ℕ} {o : Obj} (ho : Owns w q o) (hok : o.Ok w.heap) (hp : q ≠ p) {r : Heap α × Obj × PyM Unit}
    (hf : FromOr w.heap r.2.1 fun b => (∃ a ∈ w.arrs, a.buf = b) ∨ ∃ o' a, w.polys[p]? = some o' ∧ o'.v = some a ∧ a.buf = b) :
    Owns (w.mutate p r).1 q o := by
  refine ⟨by simp only [World.mutate, List.getElem?_set_ne hp.symm, ho.1], ?_⟩
  intro a ha
  obtain ⟨h1, h2⟩ := ho.2 a ha
  refine ⟨h1, ?_⟩
  intro p' o' b hp' ho' hb
  simp only [World.mutate, List.getElem?_set] at ho'
  by_cases hpp : p = p'
  · subst hpp
    simp only [if_true] at ho'
    split at ho'
    · simp only [Option.some.injEq] at ho'
      subst ho'
      rcases hf b hb with h3 | ⟨a', h3, h4⟩ | ⟨o'', a', h3, h4, h5⟩
      · have := (hok a ha).1.1
        omega
      · rw [← h4]; exact h1 a' h3
      · rw [← h5]; exact h2 p o'' a' hp.symm h3 h4
    · cases ho'
  · simp only [hpp, if_false] at ho'
    exact h2 p' o' b hp' ho' hb

theorem owns_add {w : World α} {q : ℕ} {o : Obj} (ho : Owns w q o) (hok : o.Ok w.heap) {r : Heap α × PyM Obj}
    (hf : ∀ o', r.2 = .ok o' → FromOr w.heap o' fun b => ∃ a ∈ w.arrs, a.buf = b) : Owns (w.add r).1 q o := by
  have hl : q < w.polys.length := (List.getElem?_eq_some_iff.mp ho.1).1
  unfold World.add
  split
  · rename_i o1 h1
    refine ⟨by simp only [List.getElem?_append_left hl, ho.1], ?_⟩
    intro a ha
    obtain ⟨h2, h3⟩ := ho.2 a ha
    refine ⟨h2, ?_⟩
    intro p o' b hp ho' hb
    simp only at ho'
    by_cases hpl : p < w.polys.length
    · rw [List.getElem?_append_left hpl] at ho'
      exact h3 p o' b hp ho' hb
    · rw [List.getElem?_append_right (by omega)] at ho'
      have : o' = o1 := by
        have := List.mem_of_getElem? ho'
        simpa using this
      subst this
      rcases hf o' h1 b hb with h4 | ⟨a', h4, h5⟩
      · have := (hok a ha).1.1
        omega
      · rw [← h5]; exact h2 a' h4
  · exact ho

theorem resolve_buf {w : World α} {c : CArg α} {arg : Arg α} (h : w.resolve c = some arg) {b : ℕ} (hb : argBuf arg b) :
    ∃ a ∈ w.arrs, a.buf = b := by
  match c with
  | .data x => cases h; cases hb
  | .arr k =>
    simp only [World.resolve, Option.map_eq_some_iff] at h
    obtain ⟨a, ha, rfl⟩ := h
    exact ⟨a, List.mem_of_getElem? ha, hb⟩

theorem step_owns {w : World α} (hw : w.Ok) {q : ℕ} {o : Obj} (ho : Owns w q o) {c : Cmd α} (hc : ¬ Touches q c) :
    Owns (w.step c).1 q o ∧ o.view (w.step c).1.heap = o.view w.heap := by
  have hok := hw.polys o (List.mem_of_getElem? ho.1)
  by_cases hwr : IsWrite c
  · cases c with
    | write k i j x =>
      simp only [World.step]
      split
      · exact ⟨ho, rfl⟩
      · rename_i a ha
        split
        · rename_i h' hh
          refine ⟨⟨ho.1, ho.2⟩, ?_⟩
          unfold Obj.view
          cases hv : o.v with
          | none => rfl
          | some a' =>
            have hne := (ho.2 a' hv).1 a (List.mem_of_getElem? ha)
            have : cellAt h' a'.buf = cellAt w.heap a'.buf := by
              funext m
              unfold write at hh
              split at hh
              · cases hh
              · split at hh
                · cases hh
                · cases hh
                  simp only [cellAt, List.getElem?_modify, hne, if_false]
                  cases w.heap[a'.buf]? <;> rfl
            simp only [Option.map_some, Arr.points, Arr.rows, this]
        · exact ⟨ho, rfl⟩
    | _ => cases hwr
  · refine ⟨?_, view_ext hok ((step_grows hw c).heap hwr)⟩
    cases c with
    | write k i j x => exact absurd trivial hwr
    | array n rows =>
      refine ⟨ho.1, ?_⟩
      intro a ha
      obtain ⟨h1, h2⟩ := ho.2 a ha
      refine ⟨?_, h2⟩
      intro b hb
      rcases List.mem_append.mp hb with h3 | h3
      · exact h1 b h3
      · rw [List.mem_singleton.mp h3]
        have := (hok a ha).1.1
        simp only [alloc]
        omega
    | slice k i j =>
      simp only [World.step]
      split
      · exact ho
      · rename_i a' ha'
        refine ⟨ho.1, ?_⟩
        intro a ha
        obtain ⟨h1, h2⟩ := ho.2 a ha
        refine ⟨?_, h2⟩
        intro b hb
        rcases List.mem_append.mp hb with h3 | h3
        · exact h1 b h3
        · rw [List.mem_singleton.mp h3]
          exact h1 a' (List.mem_of_getElem? ha')
    | takeV p =>
      simp only [World.step]
      split
      · exact ho
      · rename_i o' ho'
        split
        · exact ho
        · rename_i a' ha'
          refine ⟨ho.1, ?_⟩
          intro a ha
          obtain ⟨h1, h2⟩ := ho.2 a ha
          refine ⟨?_, h2⟩
          intro b hb
          rcases List.mem_append.mp hb with h3 | h3
          · exact h1 b h3
          · rw [List.mem_singleton.mp h3]
            exact h2 p o' a' (fun h => hc h.symm) ho' ha'
    | poly arg closed =>
      simp only [World.step]
      split
      · exact ho
      · rename_i arg' ha
        refine owns_add ho hok ?_
        intro o' h1 b hb
        rcases new_from (h' := (Obj.new w.heap arg' closed).1) (o := o') (by rw [← h1]) b hb with h2 | h2
        · exact Or.inl h2
        · exact Or.inr (resolve_buf ha h2)
    | setV p arg =>
      simp only [World.step]
      split
      · rename_i o' arg' ho' ha
        refine owns_mutate ho hok hc ?_
        intro b hb
        rcases setV_from w.heap o' arg' b hb with h2 | h2 | ⟨a, h2, h3⟩
        · exact Or.inl h2
        · exact Or.inr (Or.inl (resolve_buf ha h2))
        · exact Or.inr (Or.inr ⟨o', a, ho', h2, h3⟩)
      · exact ho
    | setClosed p b =>
      simp only [World.step]
      split
      · exact ho
      · rename_i o' ho'
        refine owns_mutate ho hok hc ?_
        intro a ha
        simp only [(updateEdges_v _).1] at ha
        exact Or.inr (Or.inr ⟨o', a, ho', ha, rfl⟩)
    | flip p =>
      simp only [World.step]
      split
      · exact ho
      · rename_i o' ho'
        refine owns_mutate ho hok hc ?_
        intro b hb
        unfold Obj.flip at hb
        cases hv : o'.v with
        | none => simp only [hv] at hb; cases hb
        | some a =>
          simp only [hv] at hb
          rcases setV_from w.heap o' (.arr a.flipud) b hb with h2 | h2 | ⟨a', h2, h3⟩
          · exact Or.inl h2
          · exact Or.inr (Or.inr ⟨o', a, ho', hv, h2⟩)
          · exact Or.inr (Or.inr ⟨o', a', ho', h2, h3⟩)
    | partition p l =>
      simp only [World.step]
      split
      · exact ho
      · rename_i o' ho'
        refine owns_mutate ho hok hc ?_
        intro b hb
        unfold Obj.partition at hb
        cases hv : (o'.view w.heap).partitionVerts l with
        | error e => simp only [hv] at hb; exact Or.inr (Or.inr ⟨o', b, ho', hb, rfl⟩)
        | ok x =>
          simp only [hv] at hb
          rcases setV_from w.heap o' (.data (rowsOf x.2)) b hb with h2 | h2 | ⟨a', h2, h3⟩
          · exact Or.inl h2
          · cases h2
          · exact Or.inr (Or.inr ⟨o', a', ho', h2, h3⟩)
    | copy p =>
      simp only [World.step]
      split
      · exact ho
      · rename_i o1 ho1
        refine owns_add ho hok ?_
        intro o' h1 b hb
        rcases copy_from (h := w.heap) (o := o1) (h' := (o1.copy w.heap).1) (by rw [← h1]) b hb with h2 | h2
        · exact Or.inl h2
        · cases h2
    | reindexed p i =>
      simp only [World.step]
      split
      · exact ho
      · refine owns_add ho hok ?_
        intro o' h1 b hb
        rcases fresh_from (h := w.heap) (o := o') (h' := (Obj.fresh w.heap _).1) (by rw [← h1]) b hb with h2 | h2
        · exact Or.inl h2
        · cases h2
    | cut p pl =>
      simp only [World.step]
      split
      · exact ho
      · refine owns_add ho hok ?_
        intro o' h1 b hb
        rcases fresh_from (h := w.heap) (o := o') (h' := (Obj.fresh w.heap _).1) (by rw [← h1]) b hb with h2 | h2
        · exact Or.inl h2
        · cases h2

theorem run_owns {w : World α} (hw : w.Ok) {q : ℕ} {o : Obj} (ho : Owns w q o) (cs : List (Cmd α)) (hc : ∀ c ∈ cs, ¬ Touches q c) :
    look (w.run cs) q = look w q := by
  have : Owns (w.run cs) q o ∧ o.view (w.run cs).heap = o.view w.heap := by
    induction cs generalizing w with
    | nil => exact ⟨ho, rfl⟩
    | cons c cs ih =>
      obtain ⟨h1, h2⟩ := step_owns hw ho (hc c (List.mem_cons_self ..))
      obtain ⟨h3, h4⟩ := ih (step_ok hw c) h1 fun c' h' => hc c' (List.mem_cons_of_mem _ h')
      exact ⟨h3, h4.trans h2⟩
  simp only [look, this.1.1, ho.1, Option.map_some, this.2]

/-- the command makes a new polyline from data or from another polyline, not from an array -/
def MakesOwn : Cmd α → Prop
  | .poly (.data _) _ | .copy _ | .reindexed _ _ | .cut _ _ => True
  | _ => False

theorem owns_new {w : World α} (hw : w.Ok) {r : Heap α × PyM Obj} (o : Obj) (hr : r.2 = .ok o) (hf : FromOr w.heap o fun _ => False) :
    Owns (w.add r).1 w.polys.length o := by
  unfold World.add
  rw [hr]
  refine ⟨by simp, ?_⟩
  intro a ha
  rcases hf a ha with h1 | h1
  · refine ⟨?_, ?_⟩
    · intro b hb
      have := (hw.arrs b hb).1
      omega
    · intro p o' b hp ho' hb
      by_cases hpl : p < w.polys.length
      · simp only [List.getElem?_append_left hpl] at ho'
        have := (hw.polys o' (List.mem_of_getElem? ho') b hb).1.1
        omega
      · have := (List.getElem?_eq_some_iff.mp ho').1
        simp only [List.length_append, List.length_cons, List.length_nil] at this
        omega
  · exact absurd h1 id

/-- C92.  A polyline made from data, by `copy`, `reindexed` or `cut_by_plane` is independent of everything else: it keeps
its looks whatever the program does to arrays and to other polylines, as long as it does not change this polyline itself
or read its `v`. -/
theorem C92_independent (cs : List (Cmd α)) (c : Cmd α) (hc : MakesOwn c) (cs' : List (Cmd α)) :
    let w := (start α).run cs
    (∀ c' ∈ cs', ¬ Touches w.polys.length c') → ∀ q, look (w.step c).1 w.polys.length = some q →
    look ((w.step c).1.run cs') w.polys.length = some q := by
  have hw := reached_ok cs
  generalize (start α).run cs = w at *
  intro w' ht q hq
  rw [show w' = w from rfl] at *
  have hok := step_ok hw c
  have hno : look w w.polys.length = none := by simp [look]
  suffices h : ∃ o, Owns (w.step c).1 w.polys.length o by
    obtain ⟨o, ho⟩ := h
    rw [run_owns hok ho cs' ht, hq]
  have key : ∀ r : Heap α × PyM Obj, (w.step c) = w.add r → (∀ o, r.2 = .ok o → FromOr w.heap o fun _ => False) →
      ∃ o, Owns (w.step c).1 w.polys.length o := by
    intro r h1 h2
    rw [h1] at hq ⊢
    cases h3 : r.2 with
    | ok o => exact ⟨o, owns_new hw o h3 (h2 o h3)⟩
    | error e =>
      rw [World.add, h3] at hq
      simp [look] at hq
  cases c with
  | poly arg closed =>
    cases arg with
    | arr k => cases hc
    | data x =>
      refine key (Obj.new w.heap (.data x) closed) rfl ?_
      intro o h1 b hb
      rcases new_from (h' := (Obj.new w.heap (.data x) closed).1) (o := o) (by rw [← h1]) b hb with h2 | h2
      · exact Or.inl h2
      · cases h2
  | copy p =>
    cases hp : w.polys[p]? with
    | none =>
      simp only [World.step, hp] at hq
      rw [hno] at hq
      cases hq
    | some o1 =>
      refine key (o1.copy w.heap) (by simp only [World.step, hp]) ?_
      intro o h1
      exact copy_from (h' := (o1.copy w.heap).1) (by rw [← h1])
  | reindexed p i =>
    cases hp : w.polys[p]? with
    | none =>
      simp only [World.step, hp] at hq
      rw [hno] at hq
      cases hq
    | some o1 =>
      refine key (Obj.fresh w.heap (((o1.view w.heap).reindexed i).map Prod.fst)) (by simp only [World.step, hp]) ?_
      intro o h1
      exact fresh_from (h' := (Obj.fresh w.heap _).1) (by rw [← h1])
  | cut p pl =>
    cases hp : w.polys[p]? with
    | none =>
      simp only [World.step, hp] at hq
      rw [hno] at hq
      cases hq
    | some o1 =>
      refine key (Obj.fresh w.heap ((o1.view w.heap).cutByPlane pl)) (by simp only [World.step, hp]) ?_
      intro o h1
      exact fresh_from (h' := (Obj.fresh w.heap _).1) (by rw [← h1])
  | array n rows => cases hc
  | slice k i j => cases hc
  | write k i j x => cases hc
  | takeV p => cases hc
  | setV p a => cases hc
  | setClosed p b => cases hc
  | flip p => cases hc
  | partition p l => cases hc

/-! #### invariants of all programs -/

theorem new_match {a : VArg α} {c : Bool} {q : Polyline α} (h : Polyline.new a c = .ok q) : EdgesMatch q := by
  unfold Polyline.new at h
  have := setV_spec (⟨none, c, none⟩ : Polyline α) a
  generalize Polyline.setV (⟨none, c, none⟩ : Polyline α) a = x at *
  obtain ⟨x, r⟩ := x
  cases r with
  | error e => cases h
  | ok u =>
    cases h
    rcases this with ⟨-, h1⟩ | ⟨⟨e, h1⟩, -⟩
    · exact h1
    · cases h1

theorem reindexed_new {p q : Polyline α} {i : ℤ} {m : List ℤ} (h : p.reindexed i = .ok (q, m)) :
    ∃ a c, Polyline.new a c = .ok q := by
  unfold Polyline.reindexed at h
  split at h
  · cases h
  · obtain ⟨v, -, h⟩ := bind_eq_ok.mp h
    obtain ⟨r, hr, h⟩ := bind_eq_ok.mp h
    cases h
    exact ⟨_, _, hr⟩

theorem cutByPlane_new {p q : Polyline α} {pl : Plane α} (h : p.cutByPlane pl = .ok q) : ∃ a c, Polyline.new a c = .ok q := by
  unfold Polyline.cutByPlane at h
  obtain ⟨x, -, h⟩ := bind_eq_ok.mp h
  obtain ⟨points, indices⟩ := x
  simp only at h
  split at h
  · cases h
  · split at h
    · split at h
      · cases h
      · unfold Polyline.cutClosed at h
        obtain ⟨v, -, h⟩ := bind_eq_ok.mp h
        obtain ⟨i, -, h⟩ := bind_eq_ok.mp h
        obtain ⟨y, -, h⟩ := bind_eq_ok.mp h
        unfold Polyline.cutWorking at h
        obtain ⟨_, -, h⟩ := bind_eq_ok.mp h
        obtain ⟨_, -, h⟩ := bind_eq_ok.mp h
        obtain ⟨_, -, h⟩ := bind_eq_ok.mp h
        obtain ⟨_, -, h⟩ := bind_eq_ok.mp h
        obtain ⟨_, -, h⟩ := bind_eq_ok.mp h
        obtain ⟨_, -, h⟩ := bind_eq_ok.mp h
        obtain ⟨_, -, h⟩ := bind_eq_ok.mp h
        exact ⟨_, _, h⟩
    · split at h
      · cases h
      · obtain ⟨_, -, h⟩ := bind_eq_ok.mp h
        obtain ⟨_, -, h⟩ := bind_eq_ok.mp h
        unfold Polyline.cutOpen at h
        obtain ⟨_, -, h⟩ := bind_eq_ok.mp h
        obtain ⟨_, -, h⟩ := bind_eq_ok.mp h
        obtain ⟨_, -, h⟩ := bind_eq_ok.mp h
        obtain ⟨_, -, h⟩ := bind_eq_ok.mp h
        split at h
        · exact ⟨_, _, h⟩
        · exact ⟨_, _, h⟩

/-- An invariant of polylines holds in all programs if the methods keep it, new polylines have it, and assignments into
arrays keep it. -/
theorem program_invariant (P : Polyline α → Prop) (W : Cmd α → Prop) (hnew : ∀ a c q, Polyline.new a c = .ok q → P q)
    (hop : ∀ q (op : PolyOp α), P q → P (op.run q).1)
    (hwrite : ∀ (w : World α) k i j x p q q', w.Ok → W (.write k i j x) → look w p = some q →
      look (w.step (.write k i j x)).1 p = some q' → P q → P q')
    (cs : List (Cmd α)) (hcs : ∀ c ∈ cs, W c) :
    ∀ p q, look ((start α).run cs) p = some q → P q := by
  have madd : ∀ (w : World α) (r : Heap α × PyM Obj) (s : PyM (Polyline α)), w.Ok → Makes w.heap r s →
      (∀ p q, look w p = some q → P q) → (∀ q, s = .ok q → P q) → ∀ p q, look (w.add r).1 p = some q → P q := by
    intro w r s hw hr hP hs p q hq
    have hg := grows_add (c := Cmd.array 0 []) hr
    have hno := add_look hr
    by_cases hp : p < w.polys.length
    · have ho := List.getElem?_eq_getElem hp
      have h1 : look (w.add r).1 p = look w p := by
        simp only [look, hg.polys p _ (by simp [receiver]) ho, ho, Option.map_some]
        rw [view_ext (hw.polys _ (List.mem_of_getElem? ho)) (hg.heap (fun h => h))]
      exact hP p q (h1 ▸ hq)
    · cases hs' : s with
      | error e =>
        have h2 : (w.add r).1.polys = w.polys := by
          have := hr.view
          rw [hs'] at this
          unfold World.add
          cases hr2 : r.2 with
          | ok o => rw [hr2] at this; cases this
          | error e' => rfl
        rw [look, h2, List.getElem?_eq_none (by omega)] at hq
        cases hq
      | ok x =>
        have h2 : (w.add r).1.polys.length = w.polys.length + 1 := by
          have := hr.view
          rw [hs'] at this
          unfold World.add
          cases hr2 : r.2 with
          | error e => rw [hr2] at this; cases this
          | ok o => simp
        have h3 : p = w.polys.length := by
          obtain ⟨o, ho, -⟩ := look_some hq
          have := (List.getElem?_eq_some_iff.mp ho).1
          omega
        rw [h3, (hno.1 x hs').2] at hq
        cases hq
        exact hs _ hs'
  have mmut : ∀ (w : World α) (m : ℕ) (o : Obj) (r : Heap α × Obj × PyM Unit) (s : Polyline α × PyM Unit) (c : Cmd α),
      w.Ok → receiver c = some m → w.polys[m]? = some o → Refines w.heap r s → (∀ p q, look w p = some q → P q) → P s.1 →
      ∀ p q, look (w.mutate m r).1 p = some q → P q := by
    intro w m o r s c hw hc ho hr hP hs p q hq
    by_cases hp : p = m
    · subst hp
      rw [(mutate_look ho hr).1] at hq
      cases hq
      exact hs
    · have h1 : look (w.mutate m r).1 p = look w p := by
        simp only [look, World.mutate, List.getElem?_set_ne (Ne.symm hp)]
        cases hpo : w.polys[p]? with
        | none => rfl
        | some o' => simp only [Option.map_some, view_ext (hw.polys o' (List.mem_of_getElem? hpo)) hr.pre]
      exact hP p q (h1 ▸ hq)
  have step : ∀ (w : World α) (c : Cmd α), w.Ok → W c → (∀ p q, look w p = some q → P q) →
      ∀ p q, look (w.step c).1 p = some q → P q := by
    intro w c hw hc hP
    have same : ∀ w' : World α, w'.polys = w.polys → w.heap <+: w'.heap → ∀ p q, look w' p = some q → P q := by
      intro w' h1 h2 p q hq
      obtain ⟨o, ho, rfl⟩ := look_some hq
      rw [h1] at ho
      rw [view_ext (hw.polys o (List.mem_of_getElem? ho)) h2]
      exact hP p _ (by simp [look, ho])
    have has : ∀ {p : ℕ} {o : Obj}, w.polys[p]? = some o → P (o.view w.heap) := fun {p} {o} ho => hP p _ (by simp [look, ho])
    cases c with
    | array n rows => exact same _ rfl (alloc_prefix w.heap n rows)
    | slice k i j =>
      simp only [World.step]
      split
      · exact hP
      · exact same _ rfl List.prefix_rfl
    | write k i j x =>
      intro p q' hq'
      have : ∃ q, look w p = some q := by
        obtain ⟨o, ho, -⟩ := look_some hq'
        have : (w.step (.write k i j x)).1.polys = w.polys := by
          simp only [World.step]
          split
          · rfl
          · split <;> rfl
        rw [this] at ho
        exact ⟨o.view w.heap, by simp only [look, ho, Option.map_some]⟩
      obtain ⟨q, hq⟩ := this
      exact hwrite w k i j x p q q' hw hc hq hq' (hP p q hq)
    | takeV p =>
      simp only [World.step]
      split
      · exact hP
      · split
        · exact hP
        · exact same _ rfl List.prefix_rfl
    | poly arg closed =>
      simp only [World.step]
      split
      · exact hP
      · rename_i arg' ha
        exact madd w _ _ hw (new_makes (resolve_ok hw ha) closed) hP fun q h => hnew _ _ q h
    | setV p arg =>
      simp only [World.step]
      split
      · rename_i o arg' ho ha
        exact mmut w p o _ _ (.flip p) hw rfl ho (setV_refines (hw.polys o (List.mem_of_getElem? ho)) (resolve_ok hw ha)) hP
          (hop _ (.setV _) (has ho))
      · exact hP
    | setClosed p b =>
      simp only [World.step]
      split
      · exact hP
      · rename_i o ho
        exact mmut w p o _ _ (.flip p) hw rfl ho (setClosed_refines (hw.polys o (List.mem_of_getElem? ho)) b) hP
          (hop _ (.setClosed b) (has ho))
    | flip p =>
      simp only [World.step]
      split
      · exact hP
      · rename_i o ho
        exact mmut w p o _ _ (.flip p) hw rfl ho (flip_refines (hw.polys o (List.mem_of_getElem? ho))) hP (hop _ .flip (has ho))
    | partition p l =>
      simp only [World.step]
      split
      · exact hP
      · rename_i o ho
        exact mmut w p o _ _ (.flip p) hw rfl ho (partition_refines (hw.polys o (List.mem_of_getElem? ho)) l) hP
          (hop _ (.partition l) (has ho))
    | copy p =>
      simp only [World.step]
      split
      · exact hP
      · rename_i o ho
        refine madd w _ _ hw (copy_makes (hw.polys o (List.mem_of_getElem? ho))) hP fun q h => ?_
        unfold Polyline.copy at h
        split at h
        · exact hnew _ _ q h
        · exact hnew _ _ q h
    | reindexed p i =>
      simp only [World.step]
      split
      · exact hP
      · rename_i o ho
        refine madd w _ _ hw (fresh_makes ..) hP fun q h => ?_
        cases hr : (o.view w.heap).reindexed i with
        | error e => rw [hr] at h; cases h
        | ok x =>
          rw [hr] at h
          cases h
          obtain ⟨a, c, hn⟩ := reindexed_new hr
          exact hnew a c _ hn
    | cut p pl =>
      simp only [World.step]
      split
      · exact hP
      · refine madd w _ _ hw (fresh_makes ..) hP fun q h => ?_
        obtain ⟨a, c, hn⟩ := cutByPlane_new h
        exact hnew a c _ hn
  have all : ∀ (cs : List (Cmd α)) (w : World α), w.Ok → (∀ c ∈ cs, W c) → (∀ p q, look w p = some q → P q) →
      ∀ p q, look (w.run cs) p = some q → P q := by
    intro cs
    induction cs with
    | nil => intro w _ _ h; exact h
    | cons c cs ih =>
      intro w hw hc h
      exact ih (w.step c).1 (step_ok hw c) (fun c' h' => hc c' (List.mem_cons_of_mem _ h'))
        (step w c hw (hc c (List.mem_cons_self ..)) h)
  exact all cs (start α) ⟨fun _ h => (by cases h), fun _ h => (by cases h)⟩ hcs fun p q h => by simp [look, start] at h

theorem write_look {w : World α} {k i j : ℕ} {x : α} {p : ℕ} {q q' : Polyline α} (h : look w p = some q)
    (h' : look (w.step (.write k i j x)).1 p = some q') :
    ∃ o, w.polys[p]? = some o ∧ o.view w.heap = q ∧ o.view (w.step (.write k i j x)).1.heap = q' := by
  obtain ⟨o, ho, h1⟩ := look_some h
  have : (w.step (.write k i j x)).1.polys = w.polys := by
    simp only [World.step]
    split
    · rfl
    · split <;> rfl
  obtain ⟨o', ho', h2⟩ := look_some h'
  rw [this, ho] at ho'
  cases ho'
  exact ⟨o, ho, h1, h2⟩

/-- C92.  In every program the edges of every polyline are those of its vertices, except while it is closed and has an
array of no rows (C34): assignments into arrays shared with it do not change that. -/
theorem C92_edges (cs : List (Cmd α)) (p : ℕ) (q : Polyline α) (h : look ((start α).run cs) p = some q) :
    EdgesMatch q ∨ Hollow q := by
  refine program_invariant (fun q => EdgesMatch q ∨ Hollow q) (fun _ => True) ?_ ?_ ?_ cs (fun _ _ => trivial) p q h
  · intro a c q hq
    exact Or.inl (new_match hq)
  · intro q op hq
    rcases C34_step q op with ⟨-, h1⟩ | ⟨-, h1 | h1⟩
    · exact Or.inl h1
    · rw [h1]; exact hq
    · exact Or.inr h1.1
  · intro w k i j x p q q' _ _ h1 h2 hq
    obtain ⟨o, -, rfl, rfl⟩ := write_look h1 h2
    obtain ⟨v, c, e⟩ := o
    cases v with
    | none => exact hq
    | some a =>
      simp only [EdgesMatch, Hollow, Obj.view, Option.map_some, points_length, Option.some.injEq] at hq ⊢
      rcases hq with hq | ⟨h3, h4⟩
      · exact Or.inl hq
      · refine Or.inr ⟨h3, ?_⟩
        have := congrArg List.length h4
        rw [points_length] at this
        exact List.length_eq_zero_iff.mp ((points_length _ _).trans this)

/-- a number, not NaN or an infinity -/
def IsFinite (x : α) : Prop := npIsNan x = false ∧ npIsInf x = false

/-- all coordinates are finite -/
def FiniteV (q : Polyline α) : Prop := ∀ vs, q.v = some vs → ∀ v ∈ vs, ∀ x ∈ v.toList, IsFinite x

theorem asPoints_finite {a : VArg α} {vs : List (V3 α)} (h : asPoints a = .ok (some vs)) : ∀ v ∈ vs, ∀ x ∈ v.toList, IsFinite x := by
  match a with
  | .none => cases h
  | .other => cases h
  | .mat n rows =>
    unfold asPoints at h
    dsimp only at h
    split at h
    · cases h
    · rename_i hfin
      have hfin' : ∀ r ∈ rows, ∀ x ∈ r, IsFinite x := by
        intro r hr x hx
        simp only [List.any_eq_true, not_exists, not_and, Bool.or_eq_true, not_or, Bool.not_eq_true] at hfin
        exact hfin r hr x hx
      split at h
      · rw [mapM_row3] at h
        split at h
        · rename_i hl
          simp only [ok_bind, pure_eq_ok, Except.ok.injEq, Option.some.injEq] at h
          subst h
          intro v hv x hx
          obtain ⟨r, hr, rfl⟩ := List.mem_map.mp hv
          have := List.all_eq_true.mp hl r hr
          rw [point_list (by simpa using this)] at hx
          exact hfin' r hr x hx
        · cases h
      · split at h
        · rename_i xs ys zs
          cases h
          intro v hv x hx
          simp only [List.mem_iff_getElem, List.length_zipWith, List.getElem_zipWith] at hv
          obtain ⟨i, hi, rfl⟩ := hv
          simp only [V3.toList, List.getElem_zip, List.mem_cons, List.not_mem_nil, or_false] at hx
          rcases hx with rfl | rfl | rfl
          · exact hfin' xs (by simp) _ (List.getElem_mem _)
          · exact hfin' ys (by simp) _ (List.getElem_mem _)
          · exact hfin' zs (by simp) _ (List.getElem_mem _)
        · cases h

theorem updateEdges_pv (p : Polyline α) : p.updateEdges.1.v = p.v := by
  obtain ⟨v, c, e⟩ := p
  cases v with
  | none => rfl
  | some v =>
    simp only [Polyline.updateEdges]
    cases mkEdges v.length c <;> rfl

theorem setV_finite {p : Polyline α} (hp : FiniteV p) (a : VArg α) : FiniteV (p.setV a).1 := by
  unfold Polyline.setV
  cases ha : asPoints a with
  | error e => exact hp
  | ok v =>
    intro vs hvs
    simp only [updateEdges_pv] at hvs
    subst hvs
    exact asPoints_finite ha

/-- C92.  If a program only assigns finite numbers into arrays, all vertices of all its polylines are finite, though arrays
may hold NaN and infinities from the start. -/
theorem C92_finite (cs : List (Cmd α)) (hcs : ∀ c ∈ cs, ∀ k i j x, c = .write k i j x → IsFinite x) (p : ℕ) (q : Polyline α)
    (vs : List (V3 α)) (h : look ((start α).run cs) p = some q) (hv : q.v = some vs) : ∀ v ∈ vs, ∀ x ∈ v.toList, IsFinite x := by
  refine program_invariant FiniteV (fun c => ∀ k i j x, c = .write k i j x → IsFinite x) ?_ ?_ ?_ cs hcs p q h vs hv
  · intro a c q hq
    unfold Polyline.new at hq
    have := setV_finite (p := ⟨none, c, none⟩) (fun vs h => by cases h) a
    generalize Polyline.setV (⟨none, c, none⟩ : Polyline α) a = y at *
    obtain ⟨y, r⟩ := y
    cases r with
    | error e => cases hq
    | ok u => cases hq; exact this
  · intro q op hq
    cases op with
    | setV a => exact setV_finite hq a
    | delV => exact setV_finite hq .none
    | setClosed b =>
      intro vs hvs
      refine hq vs ?_
      have := updateEdges_pv { q with closed := b }
      simp only [PolyOp.run, Polyline.setClosed] at hvs
      rw [this] at hvs
      exact hvs
    | flip =>
      simp only [PolyOp.run, Polyline.flip]
      split
      · exact hq
      · exact setV_finite hq _
    | partition l =>
      simp only [PolyOp.run, Polyline.partitionByLength]
      split
      · exact hq
      · rename_i indices newV _
        have := setV_finite hq (rowsOf newV)
        generalize q.setV (rowsOf newV) = y at *
        obtain ⟨y, r⟩ := y
        cases r <;> exact this
  · intro w k i j x p q q' hw hx h1 h2 hq
    obtain ⟨o, ho, rfl, rfl⟩ := write_look h1 h2
    have hok := hw.polys o (List.mem_of_getElem? ho)
    intro vs hvs
    cases hov : o.v with
    | none => rw [Obj.view, hov] at hvs; cases hvs
    | some a =>
      have h3 := hok a hov
      have hold := hq (a.points w.heap) (by simp [Obj.view, hov])
      simp only [Obj.view, hov, Option.map_some, Option.some.injEq] at hvs
      subst hvs
      intro v hv y hy
      have hold' : ∀ r ∈ a.cells, ∀ c ∈ r, IsFinite (cellAt w.heap a.buf c) := by
        intro r hr c hc
        have h4 : r.map (cellAt w.heap a.buf) ∈ (a.points w.heap).map V3.toList := by
          rw [points_rows h3.2.2]
          exact List.mem_map_of_mem hr
        obtain ⟨u, hu, h5⟩ := List.mem_map.mp h4
        exact hold u hu _ (h5 ▸ List.mem_map_of_mem hc)
      have hmem : v.toList ∈ a.rows (w.step (.write k i j x)).1.heap := by
        rw [← points_rows h3.2.2]
        exact List.mem_map_of_mem hv
      obtain ⟨r, hr, hrv⟩ := List.mem_map.mp hmem
      rw [← hrv] at hy
      obtain ⟨c, hc, rfl⟩ := List.mem_map.mp hy
      have hxf := hx k i j x rfl
      have hold'' := hold' r hr c hc
      simp only [World.step]
      split
      · exact hold''
      · rename_i b hb
        have hbok := hw.arrs b (List.mem_of_getElem? hb)
        split
        · rename_i h' hh
          have : ∃ s d, b.cells[i]? = some s ∧ s[j]? = some d := by
            unfold write at hh
            split at hh
            · cases hh
            · rename_i s hs
              split at hh
              · cases hh
              · rename_i d hd
                exact ⟨s, d, hs, hd⟩
          obtain ⟨s, d, hs, hd⟩ := this
          rw [write_cell hbok hs hd hh]
          split
          · exact hxf
          · exact hold''
        · exact hold''

theorem copy_flip_raise {q : Polyline α} {vs : List (V3 α)} (hv : q.v = some vs) {v : V3 α} (hm : v ∈ vs) {x : α} (hx : x ∈ v.toList)
    (hn : ¬ IsFinite x) : q.copy = .error .ValueError ∧ q.flip = (q, .error .ValueError) := by
  have key : ∀ us : List (V3 α), v ∈ us → asPoints (rowsOf us) = .error .ValueError := by
    intro us hu
    have : ((us.map V3.toList).any fun r => r.any fun x => npIsNan x || npIsInf x) = true := by
      rw [List.any_eq_true]
      refine ⟨v.toList, List.mem_map_of_mem hu, ?_⟩
      rw [List.any_eq_true]
      refine ⟨x, hx, ?_⟩
      by_contra hc
      simp only [Bool.or_eq_true, not_or, Bool.not_eq_true] at hc
      exact hn hc
    simp only [rowsOf, asPoints, this, if_true]
  constructor
  · simp [Polyline.copy, hv, Polyline.new, Polyline.setV, key vs hm]
  · simp [Polyline.flip, hv, Polyline.setV, key vs.reverse (List.mem_reverse.mpr hm)]

/-- C92.  What the constructor checks can be undone behind its back: assigning NaN into an array from which a polyline was
made puts NaN into the polyline, which can then neither be copied nor flipped. -/
theorem C92_unchecked (cs : List (Cmd α)) (k : ℕ) (rows : List (List α)) (hk : entries ((start α).run cs) k = some (3, rows))
    (hr : ∀ r ∈ rows, r.length = 3) (hf : ∀ r ∈ rows, ∀ x ∈ r, IsFinite x) (i j : ℕ) (hi : i < rows.length) (hj : j < 3)
    (x : α) (hx : ¬ IsFinite x) :
    ∀ p w, p = ((start α).run cs).polys.length → w = (start α).run (cs ++ [Cmd.poly (CArg.arr k) false, Cmd.write k i j x]) →
    (∃ q vs, look w p = some q ∧ q.v = some vs ∧ vs.map V3.toList = rows.set i ((rows[i]).set j x)) ∧
    (w.step (.copy p)).2 = some .ValueError ∧ (w.step (.flip p)).2 = some .ValueError := by
  intro p w hp hw0
  have hw1 : ∀ cs c, (start α).run (cs ++ [c]) = (((start α).run cs).step c).1 := fun cs c => by
    simp [World.run, List.foldl_append]
  obtain ⟨-, q, vs, h1, h2, h3⟩ := C92_shared cs k rows hk hr hf false (by simp) [Cmd.write k i j x]
    (by intro c hc; rw [List.mem_singleton.mp hc]; exact id)
  have hw : w = (((start α).run cs).step (Cmd.poly (CArg.arr k) false)).1.run [Cmd.write k i j x] := by
    simp [hw0, World.run, List.foldl_append]
  rw [← hw] at h1 h3
  rw [← hp] at h1
  have hk1 : entries ((start α).run (cs ++ [Cmd.poly (CArg.arr k) false])) k = some (3, rows) := by
    rw [hw1]
    exact (C92_frame cs (Cmd.poly (CArg.arr k) false) id).1 k _ hk
  have hj' : j < (rows[i]).length := by rw [hr _ (List.getElem_mem hi)]; exact hj
  have h4 := ((C92_write (cs ++ [Cmd.poly (CArg.arr k) false]) k 3 i j x rows hk1).1 _ (List.getElem?_eq_getElem hi) hj').2
  have hw' : w = ((((start α).run (cs ++ [Cmd.poly (CArg.arr k) false]))).step (.write k i j x)).1 := by
    rw [← hw1]
    simp [hw0, List.append_assoc]
  rw [← hw', h3] at h4
  have h5 : vs.map V3.toList = rows.set i ((rows[i]).set j x) := by
    simpa using h4
  have hmem : (rows[i]).set j x ∈ vs.map V3.toList := by
    rw [h5]
    exact List.mem_set hi _
  obtain ⟨v, hv, hve⟩ := List.mem_map.mp hmem
  have hxv : x ∈ v.toList := by
    rw [hve]
    exact List.mem_set hj' _
  obtain ⟨h6, h7⟩ := copy_flip_raise h2 hv hxv hx
  refine ⟨⟨q, vs, h1, h2, h5⟩, ?_⟩
  rw [hw0] at h1 ⊢
  have hm := C92_methods (cs ++ [Cmd.poly (CArg.arr k) false, Cmd.write k i j x]) p q h1
  generalize (start α).run (cs ++ [Cmd.poly (CArg.arr k) false, Cmd.write k i j x]) = w' at hm ⊢
  refine ⟨(hm.2.2.2.2.2.1.2 _ h6).1, ?_⟩
  have := hm.2.2.2.1.2
  simp only [PolyOp.run, h7, PolyOp.run.errOf] at this
  exact this

/-- Non-vacuity of C92: a program with an array of two points, a polyline made from it, and an assignment; the polyline
has the new coordinate. -/
example : look ((start ℝ).run [.array 3 [[0, 0, 0], [1, 0, 0]], .poly (.arr 0) false, .write 0 1 2 5]) 0
    = some ⟨some [⟨0, 0, 0⟩, ⟨1, 0, 5⟩], false, some [(0, 1)]⟩ := by
  have hfin : ∀ x : ℝ, (npIsNan x || npIsInf x) = false := by
    intro x
    simp [npIsNan, npIsInf]
  simp [look, start, World.run, World.step, alloc, number, World.resolve, Obj.new, Obj.setV, coerce, coerceArr, Arr.rows, cellAt, World.add, hfin,
    Except.map, Obj.updateEdges, mkEdges, write, Obj.view, Arr.points, toPoint, List.range']

end Blmath.Props
