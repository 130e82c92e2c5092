import Verif.Model.PolylineMemory
import Verif.Props.Polyline

/-! Lemmas about the memory behind polylines. -/

namespace Blmath.Geometry.Mem
variable {α : Type} [Num α]
set_option linter.unusedSectionVars false

/-- the array lies in memory and its entries have different positions -/
def Arr.Ok (h : Heap α) (a : Arr) : Prop :=
  a.buf < h.length ∧ (∀ r ∈ a.cells, ∀ c ∈ r, c < (h[a.buf]?.getD []).length) ∧ a.cells.flatten.Nodup

/-- as `Arr.Ok`, with three columns -/
def Arr.Ok3 (h : Heap α) (a : Arr) : Prop := a.Ok h ∧ a.ncols = 3 ∧ ∀ r ∈ a.cells, r.length = 3

/-- the vertices are an array in memory with three columns -/
def Obj.Ok (h : Heap α) (o : Obj) : Prop := ∀ a, o.v = some a → a.Ok3 h

/-- everything named lies in memory -/
structure World.Ok (w : World α) : Prop where
  arrs : ∀ a ∈ w.arrs, a.Ok w.heap
  polys : ∀ o ∈ w.polys, o.Ok w.heap

theorem number_read (d : α) : ∀ (rows : List (List α)) (pre : List α) (post : List α),
    (number pre.length rows).map (fun r => r.map fun i => ((pre ++ (rows.flatten ++ post))[i]?).getD d) = rows := by
  intro rows
  induction rows with
  | nil => intro pre post; rfl
  | cons r rs ih =>
    intro pre post
    rw [number, List.map_cons]
    have := ih (pre ++ r) post
    rw [List.length_append] at this
    simp only [List.flatten_cons, List.append_assoc] at this ⊢
    rw [this]
    congr 1
    apply List.ext_getElem
    · simp
    · intro i h1 h2
      simp only [List.getElem_map, List.getElem_range', one_mul]
      rw [List.getElem?_append_right (by omega)]
      simp only [add_tsub_cancel_left]
      rw [List.getElem?_append_left h2, List.getElem?_eq_getElem h2, Option.getD_some]

theorem number_flatten {β : Type} : ∀ (rows : List (List β)) (k : ℕ), (number k rows).flatten = List.range' k rows.flatten.length := by
  intro rows
  induction rows with
  | nil => intro k; rfl
  | cons r rs ih =>
    intro k
    rw [number, List.flatten_cons, ih, List.flatten_cons, List.length_append, List.range'_append_1]

theorem number_lengths {β : Type} : ∀ (rows : List (List β)) (k : ℕ), (number k rows).map List.length = rows.map List.length := by
  intro rows
  induction rows with
  | nil => intro k; rfl
  | cons r rs ih => intro k; simp [number, ih]

theorem alloc_rows (h : Heap α) (n : ℕ) (rows : List (List α)) : (alloc h n rows).2.rows (alloc h n rows).1 = rows := by
  have := number_read (Num.lit 0 : α) rows [] []
  simp only [List.length_nil, List.nil_append, List.append_nil] at this
  have hc : cellAt (h ++ [rows.flatten]) h.length = fun i => (rows.flatten[i]?).getD (Num.lit 0) := by
    funext i
    simp [cellAt]
  simp only [alloc, Arr.rows, hc]
  exact this

theorem alloc_ok (h : Heap α) (n : ℕ) (rows : List (List α)) : (alloc h n rows).2.Ok (alloc h n rows).1 := by
  refine ⟨by simp [alloc], ?_, ?_⟩
  · intro r hr c hc
    have : c ∈ (number 0 rows).flatten := List.mem_flatten.mpr ⟨r, hr, hc⟩
    rw [number_flatten] at this
    simp only [List.mem_range'_1] at this
    simpa [alloc] using this.2
  · simp only [alloc, number_flatten]
    exact List.nodup_range'

theorem alloc_prefix (h : Heap α) (n : ℕ) (rows : List (List α)) : h <+: (alloc h n rows).1 := ⟨_, rfl⟩

theorem getElem?_prefix {h h' : Heap α} (hp : h <+: h') {b : ℕ} (hb : b < h.length) : h'[b]? = h[b]? := by
  obtain ⟨t, rfl⟩ := hp
  rw [List.getElem?_append_left hb]

theorem Arr.Ok.ext {h h' : Heap α} {a : Arr} (ha : a.Ok h) (hp : h <+: h') : a.Ok h' := by
  refine ⟨lt_of_lt_of_le ha.1 hp.length_le, ?_, ha.2.2⟩
  rw [getElem?_prefix hp ha.1]
  exact ha.2.1

theorem Arr.Ok3.ext {h h' : Heap α} {a : Arr} (ha : a.Ok3 h) (hp : h <+: h') : a.Ok3 h' := ⟨ha.1.ext hp, ha.2⟩

theorem Obj.Ok.ext {h h' : Heap α} {o : Obj} (ho : o.Ok h) (hp : h <+: h') : o.Ok h' := fun a ha => (ho a ha).ext hp

theorem rows_ext {h h' : Heap α} {a : Arr} (ha : a.buf < h.length) (hp : h <+: h') : a.rows h' = a.rows h := by
  have hc : cellAt h' a.buf = cellAt h a.buf := by
    funext i
    simp only [cellAt, getElem?_prefix hp ha]
  simp only [Arr.rows, hc]

theorem points_ext {h h' : Heap α} {a : Arr} (ha : a.buf < h.length) (hp : h <+: h') : a.points h' = a.points h := by
  simp only [Arr.points, rows_ext ha hp]

theorem view_ext {h h' : Heap α} {o : Obj} (ho : o.Ok h) (hp : h <+: h') : o.view h' = o.view h := by
  unfold Obj.view
  cases hv : o.v with
  | none => rfl
  | some a => simp [points_ext (ho a hv).1.1 hp]

theorem rows_length (h : Heap α) (a : Arr) : (a.rows h).length = a.cells.length := by simp [Arr.rows]

theorem points_length (h : Heap α) (a : Arr) : (a.points h).length = a.cells.length := by simp [Arr.points, Arr.rows]

theorem mapM_row3 (rows : List (List α)) :
    rows.mapM row3 = if rows.all fun r => r.length = 3 then .ok (rows.map toPoint) else (.error .ValueError : PyM _) := by
  induction rows with
  | nil => simp
  | cons r rs ih =>
    rw [List.mapM_cons, ih]
    match r with
    | [x, y, z] =>
      by_cases h : (rs.all fun r => decide (r.length = 3)) = true
      · simp only [row3, ok_bind, h, if_true, pure_eq_ok, List.all_cons, List.length_cons, List.length_nil, List.map_cons]
        simp [toPoint]
      · simp only [row3, ok_bind, h, List.all_cons]
        simp
    | [] => simp [row3]
    | [_] => simp [row3]
    | [_, _] => simp [row3]
    | _ :: _ :: _ :: _ :: _ => simp [row3]

theorem asPoints_arr (h : Heap α) (a : Arr) :
    asPoints (.mat a.ncols (a.rows h)) = (coerceArr h a).map fun b => some (b.points h) := by
  unfold asPoints coerceArr
  dsimp only
  split
  · rfl
  · split
    · rw [mapM_row3]
      have : ((a.rows h).all fun r => decide (r.length = 3)) = a.cells.all fun r => decide (r.length = 3) := by
        simp [Arr.rows, List.all_map, Function.comp_def]
      rw [this]
      split <;> simp [Except.map, Arr.points]
    · obtain ⟨b, n, cells⟩ := a
      match cells with
      | [] => rfl
      | [_] => rfl
      | [_, _] => rfl
      | _ :: _ :: _ :: _ :: _ => rfl
      | [xs, ys, zs] =>
        simp only [Arr.rows, List.map_cons, List.map_nil, Except.map, Arr.points, List.map_zipWith]
        congr 2
        simp only [List.zip_map, List.zipWith_map]
        rfl

theorem count_zip3 (c : ℕ) : ∀ xs ys zs : List ℕ,
    (List.zipWith (fun x (p : ℕ × ℕ) => [x, p.1, p.2]) xs (ys.zip zs)).flatten.count c ≤ xs.count c + (ys.count c + zs.count c) := by
  intro xs
  induction xs with
  | nil => intro ys zs; simp
  | cons x xs ih =>
    intro ys zs
    cases ys with
    | nil => simp
    | cons y ys =>
      cases zs with
      | nil => simp
      | cons z zs =>
        have := ih ys zs
        simp only [List.zip_cons_cons, List.zipWith_cons_cons, List.flatten_cons, List.count_append, List.count_cons, List.count_nil]
        omega

theorem coerceArr_ok {h : Heap α} {a b : Arr} (ha : a.Ok h) (hc : coerceArr h a = .ok b) : b.Ok3 h ∧ b.buf = a.buf := by
  unfold coerceArr at hc
  split at hc
  · cases hc
  · split at hc
    · rename_i h3
      split at hc
      · rename_i hl
        cases hc
        refine ⟨⟨ha, h3, ?_⟩, rfl⟩
        intro r hr
        simpa using List.all_eq_true.mp hl r hr
      · cases hc
    · split at hc
      · rename_i xs ys zs hcells
        cases hc
        obtain ⟨h1, h2, h3⟩ := ha
        rw [hcells] at h2 h3
        refine ⟨⟨⟨h1, ?_, ?_⟩, rfl, ?_⟩, rfl⟩
        · intro r hr c hc
          simp only [List.mem_iff_getElem, List.length_zipWith, List.getElem_zipWith] at hr
          obtain ⟨i, hi, rfl⟩ := hr
          simp only [List.getElem_zip, List.mem_cons, List.not_mem_nil, or_false] at hc
          rcases hc with rfl | rfl | rfl
          · exact h2 xs (by simp) _ (List.getElem_mem _)
          · exact h2 ys (by simp) _ (List.getElem_mem _)
          · exact h2 zs (by simp) _ (List.getElem_mem _)
        · rw [List.nodup_iff_count_le_one] at h3 ⊢
          intro c
          have h4 := h3 c
          have h5 := count_zip3 c xs ys zs
          show List.count c (List.zipWith (fun x (p : ℕ × ℕ) => [x, p.1, p.2]) xs (ys.zip zs)).flatten ≤ 1
          simp only [List.flatten_cons, List.flatten_nil, List.append_nil, List.count_append] at h4
          omega
        · intro r hr
          simp only [List.mem_iff_getElem, List.length_zipWith, List.getElem_zipWith] at hr
          obtain ⟨i, hi, rfl⟩ := hr
          rfl
      · cases hc

/-- the argument as the model of `polyline.py` sees it -/
def Arg.toV (h : Heap α) : Arg α → VArg α
  | .arr a => .mat a.ncols (a.rows h)
  | .data x => x

/-- an argument that is an array lies in memory -/
def Arg.Ok (h : Heap α) : Arg α → Prop
  | .arr a => a.Ok h
  | .data _ => True

theorem coerce_prefix (h : Heap α) (arg : Arg α) : h <+: (coerce h arg).1 := by
  match arg with
  | .arr _ => exact List.prefix_rfl
  | .data .none => exact List.prefix_rfl
  | .data (.mat n rows) => exact alloc_prefix h n rows
  | .data .other => exact List.prefix_rfl

theorem coerce_spec (h : Heap α) (arg : Arg α) :
    asPoints (arg.toV h) = (coerce h arg).2.map fun v => v.map (Arr.points (coerce h arg).1) := by
  match arg with
  | .arr a =>
    simp only [Arg.toV, asPoints_arr, coerce]
    cases coerceArr h a <;> rfl
  | .data .none => rfl
  | .data .other => rfl
  | .data (.mat n rows) =>
    have := asPoints_arr (alloc h n rows).1 (alloc h n rows).2
    rw [alloc_rows] at this
    simp only [Arg.toV, coerce]
    rw [show (VArg.mat n rows) = VArg.mat (alloc h n rows).2.ncols rows from rfl, this]
    cases coerceArr (alloc h n rows).1 (alloc h n rows).2 <;> rfl

theorem coerce_ok {h : Heap α} {arg : Arg α} (ha : arg.Ok h) {v : Option Arr} (hc : (coerce h arg).2 = .ok v) :
    ∀ b, v = some b → b.Ok3 (coerce h arg).1 := by
  intro b hb
  subst hb
  match arg with
  | .arr a =>
    simp only [coerce] at hc ⊢
    cases h1 : coerceArr h a with
    | error e => rw [h1] at hc; cases hc
    | ok b' => rw [h1] at hc; cases hc; exact (coerceArr_ok ha h1).1
  | .data .none => cases hc
  | .data .other => cases hc
  | .data (.mat n rows) =>
    simp only [coerce] at hc ⊢
    cases h1 : coerceArr (alloc h n rows).1 (alloc h n rows).2 with
    | error e => rw [h1] at hc; cases hc
    | ok b' => rw [h1] at hc; cases hc; exact (coerceArr_ok (alloc_ok h n rows) h1).1

theorem updateEdges_view (h : Heap α) (o : Obj) :
    (o.updateEdges.1).view h = (o.view h).updateEdges.1 ∧ o.updateEdges.2 = (o.view h).updateEdges.2 := by
  unfold Obj.updateEdges Polyline.updateEdges
  cases hv : o.v with
  | none => simp [Obj.view, hv]
  | some a =>
    simp only [Obj.view, hv, Option.map_some, points_length]
    cases mkEdges a.cells.length o.closed <;> simp [hv]

theorem updateEdges_v (o : Obj) : o.updateEdges.1.v = o.v ∧ o.updateEdges.1.closed = o.closed := by
  obtain ⟨v, c, e⟩ := o
  cases v with
  | none => exact ⟨rfl, rfl⟩
  | some a =>
    simp only [Obj.updateEdges]
    cases mkEdges a.cells.length c <;> exact ⟨rfl, rfl⟩

/-- The call refines the one of the model of `polyline.py`. -/
structure Refines (h : Heap α) (r : Heap α × Obj × PyM Unit) (q : Polyline α × PyM Unit) : Prop where
  pre : h <+: r.1
  ok : r.2.1.Ok r.1
  view : r.2.1.view r.1 = q.1
  res : r.2.2 = q.2

theorem setV_refines {h : Heap α} {o : Obj} (ho : o.Ok h) {arg : Arg α} (ha : arg.Ok h) :
    Refines h (o.setV h arg) ((o.view h).setV (arg.toV h)) := by
  have h1 := coerce_spec h arg
  have h2 := coerce_prefix h arg
  have h3 := @coerce_ok _ _ h arg ha
  unfold Obj.setV Polyline.setV
  rw [h1]
  generalize coerce h arg = c at *
  obtain ⟨h', c⟩ := c
  cases c with
  | error e => exact ⟨h2, ho.ext h2, view_ext ho h2, rfl⟩
  | ok v =>
    simp only [Except.map]
    obtain ⟨h4, h5⟩ := updateEdges_view h' { o with v := v }
    refine ⟨h2, ?_, h4, h5⟩
    intro a hv
    rw [(updateEdges_v _).1] at hv
    exact h3 rfl a hv

theorem flipud_ok {h : Heap α} {a : Arr} (ha : a.Ok h) : a.flipud.Ok h := by
  refine ⟨ha.1, fun r hr => ha.2.1 r (by simpa [Arr.flipud] using hr), ?_⟩
  exact (List.Perm.flatten (List.reverse_perm a.cells)).nodup_iff.mpr ha.2.2

theorem point_list {r : List α} (hr : r.length = 3) : (toPoint r).toList = r := by
  match r with
  | [x, y, z] => rfl

theorem points_rows {h : Heap α} {a : Arr} (h3 : ∀ r ∈ a.cells, r.length = 3) : (a.points h).map V3.toList = a.rows h := by
  rw [Arr.points, List.map_map]
  conv => rhs; rw [← List.map_id (a.rows h)]
  apply List.map_congr_left
  intro r hr
  obtain ⟨s, hs, rfl⟩ := List.mem_map.mp hr
  exact point_list (by simpa using h3 s hs)

theorem flip_refines {h : Heap α} {o : Obj} (ho : o.Ok h) : Refines h (o.flip h) (o.view h).flip := by
  unfold Obj.flip Polyline.flip
  cases hv : o.v with
  | none => simp only [Obj.view, hv]; exact ⟨List.prefix_rfl, ho, by simp [Obj.view, hv], rfl⟩
  | some a =>
    have h3 := ho a hv
    have := setV_refines ho (arg := .arr a.flipud) (flipud_ok h3.1)
    simp only [Obj.view, hv] at this ⊢
    have hr : rowsOf (a.points h).reverse = VArg.mat a.flipud.ncols (a.flipud.rows h) := by
      simp only [rowsOf, Arr.flipud, Arr.rows, List.map_reverse, points_rows h3.2.2, h3.2.1]
    simp only [Option.map_some, Arg.toV] at this ⊢
    rw [hr]
    exact this

/-- the new object refines the polyline of the model, or both calls raise -/
structure Makes (h : Heap α) (r : Heap α × PyM Obj) (q : PyM (Polyline α)) : Prop where
  pre : h <+: r.1
  ok : ∀ o, r.2 = .ok o → o.Ok r.1
  view : r.2.map (Obj.view r.1) = q

theorem new_makes {h : Heap α} {arg : Arg α} (ha : arg.Ok h) (closed : Bool) :
    Makes h (Obj.new h arg closed) (Polyline.new (arg.toV h) closed) := by
  have ho : Obj.Ok h ⟨none, closed, none⟩ := fun a hv => by cases hv
  have := setV_refines ho ha
  unfold Obj.new Polyline.new
  have hv : Obj.view h ⟨none, closed, none⟩ = (⟨none, closed, none⟩ : Polyline α) := rfl
  rw [hv] at this
  generalize Obj.setV h ⟨none, closed, none⟩ arg = r at *
  generalize Polyline.setV ⟨none, closed, none⟩ (arg.toV h) = q at *
  obtain ⟨h', o, r⟩ := r
  obtain ⟨q, s⟩ := q
  obtain ⟨h1, h2, h3, h4⟩ := this
  simp only at h1 h2 h3 h4
  subst h4 h3
  cases r with
  | ok u => exact ⟨h1, fun o' ho' => by cases ho'; exact h2, rfl⟩
  | error e => exact ⟨h1, fun o' ho' => (by cases ho'), rfl⟩

theorem copy_makes {h : Heap α} {o : Obj} (ho : o.Ok h) : Makes h (o.copy h) (o.view h).copy := by
  unfold Obj.copy Polyline.copy
  cases hv : o.v with
  | none =>
    simp only [Obj.view, hv, Option.map_none]
    exact new_makes (arg := .data .none) trivial o.closed
  | some a =>
    have h3 := ho a hv
    simp only [Obj.view, hv, Option.map_some]
    have := new_makes (arg := .arr (alloc h a.ncols (a.rows h)).2) (alloc_ok h a.ncols (a.rows h)) o.closed
    have hr : rowsOf (a.points h) = Arg.toV (alloc h a.ncols (a.rows h)).1 (.arr (alloc h a.ncols (a.rows h)).2) := by
      simp only [Arg.toV, alloc_rows, rowsOf, points_rows h3.2.2]
      simp [alloc, h3.2.1]
    rw [hr]
    exact ⟨(alloc_prefix h a.ncols _).trans this.pre, this.ok, this.view⟩

theorem fresh_makes (h : Heap α) (q : PyM (Polyline α)) : Makes h (Obj.fresh h q) q := by
  unfold Obj.fresh
  cases q with
  | error e => exact ⟨List.prefix_rfl, fun o ho => (by cases ho), rfl⟩
  | ok q =>
    cases hv : q.v with
    | none =>
      simp only [hv]
      refine ⟨List.prefix_rfl, ?_, ?_⟩
      · intro o ho
        cases ho
        exact fun a ha => by cases ha
      · simp only [Except.map, Obj.view, Option.map_none]
        obtain ⟨v, c, e⟩ := q
        simp only at hv
        subst hv
        rfl
    | some v =>
      simp only [hv]
      refine ⟨alloc_prefix h 3 _, ?_, ?_⟩
      · intro o ho
        cases ho
        intro a ha
        cases ha
        refine ⟨alloc_ok .., rfl, ?_⟩
        intro r hr
        have := List.mem_map_of_mem (f := List.length) hr
        simp only [alloc, number_lengths, List.map_map, List.mem_map, Function.comp_def] at this
        obtain ⟨p, -, hp⟩ := this
        rw [← hp]
        rfl
      · have := alloc_rows h 3 (v.map V3.toList)
        simp only [Except.map, Obj.view, Option.map_some, Arr.points, this, List.map_map]
        have : (toPoint ∘ V3.toList : V3 α → V3 α) = id := by
          funext p
          rfl
        rw [this, List.map_id]
        obtain ⟨v', c, e⟩ := q
        simp only at hv
        subst hv
        rfl

theorem partition_refines {h : Heap α} {o : Obj} (ho : o.Ok h) (l : α) :
    Refines h (o.partition h l) (((o.view h).partitionByLength l).1, ((o.view h).partitionByLength l).2.map fun _ => ()) := by
  unfold Obj.partition Polyline.partitionByLength
  cases hp : (o.view h).partitionVerts l with
  | error e => exact ⟨List.prefix_rfl, ho, rfl, rfl⟩
  | ok x =>
    have := setV_refines ho (arg := .data (rowsOf x.2)) trivial
    obtain ⟨i, x⟩ := x
    simp only [Arg.toV] at this ⊢
    generalize Polyline.setV (o.view h) (rowsOf x) = s at *
    obtain ⟨s, t⟩ := s
    cases t <;> exact ⟨this.pre, this.ok, this.view, this.res⟩

theorem slice_ok {h : Heap α} {a : Arr} (ha : a.Ok h) (i j : ℤ) : (a.slice i j).Ok h := by
  have hs : (pySlice a.cells i j).Sublist a.cells :=
    (List.drop_sublist _ _).trans (List.take_sublist _ _)
  refine ⟨ha.1, fun r hr => ha.2.1 r (hs.subset hr), ha.2.2.sublist hs.flatten⟩

theorem write_lengths {h h' : Heap α} {a : Arr} {i j : ℕ} {x : α} (hw : write h a i j x = .ok h') :
    h'.map List.length = h.map List.length := by
  unfold write at hw
  split at hw
  · cases hw
  · split at hw
    · cases hw
    · cases hw
      apply List.ext_getElem
      · simp
      · intro k h1 h2
        simp only [List.getElem_map, List.getElem_modify]
        split <;> simp

theorem ok_of_lengths {h h' : Heap α} (hl : h'.map List.length = h.map List.length) {a : Arr} (ha : a.Ok h) : a.Ok h' := by
  have h1 : h'.length = h.length := by simpa using congrArg List.length hl
  refine ⟨h1 ▸ ha.1, ?_, ha.2.2⟩
  have h2 : (h'[a.buf]?.getD []).length = (h[a.buf]?.getD []).length := by
    have := congrArg (fun l => l[a.buf]?) hl
    simp only [List.getElem?_map] at this
    cases e1 : h'[a.buf]? <;> cases e2 : h[a.buf]? <;> simp [e1, e2] at this ⊢
    exact this
  rw [h2]
  exact ha.2.1

theorem mutate_ok {w : World α} (hw : w.Ok) {p : ℕ} {r : Heap α × Obj × PyM Unit} {q : Polyline α × PyM Unit}
    (hr : Refines w.heap r q) : (w.mutate p r).1.Ok := by
  refine ⟨fun a ha => (hw.arrs a ha).ext hr.pre, ?_⟩
  intro o ho
  rcases List.mem_or_eq_of_mem_set ho with ho | rfl
  · exact (hw.polys o ho).ext hr.pre
  · exact hr.ok

theorem add_ok {w : World α} (hw : w.Ok) {r : Heap α × PyM Obj} {q : PyM (Polyline α)} (hr : Makes w.heap r q) : (w.add r).1.Ok := by
  unfold World.add
  split
  · rename_i o ho
    refine ⟨fun a ha => (hw.arrs a ha).ext hr.pre, ?_⟩
    intro o' ho'
    rcases List.mem_append.mp ho' with h1 | h1
    · exact (hw.polys o' h1).ext hr.pre
    · rw [List.mem_singleton.mp h1]
      exact hr.ok o ho
  · exact ⟨fun a ha => (hw.arrs a ha).ext hr.pre, fun o ho => (hw.polys o ho).ext hr.pre⟩

theorem resolve_ok {w : World α} (hw : w.Ok) {c : CArg α} {arg : Arg α} (h : w.resolve c = some arg) : arg.Ok w.heap := by
  match c with
  | .data x => cases h; trivial
  | .arr k =>
    simp only [World.resolve, Option.map_eq_some_iff] at h
    obtain ⟨a, ha, rfl⟩ := h
    exact hw.arrs a (List.mem_of_getElem? ha)

theorem setClosed_refines {h : Heap α} {o : Obj} (ho : o.Ok h) (b : Bool) :
    Refines h (h, Obj.updateEdges { o with closed := b }) ((o.view h).setClosed b) := by
  obtain ⟨h4, h5⟩ := updateEdges_view h { o with closed := b }
  refine ⟨List.prefix_rfl, ?_, h4, h5⟩
  intro a hv
  rw [(updateEdges_v _).1] at hv
  exact ho a hv

theorem step_ok {w : World α} (hw : w.Ok) (c : Cmd α) : (w.step c).1.Ok := by
  cases c with
  | array n rows =>
    refine ⟨?_, fun o ho => (hw.polys o ho).ext (alloc_prefix w.heap n rows)⟩
    intro a ha
    rcases List.mem_append.mp ha with h1 | h1
    · exact (hw.arrs a h1).ext (alloc_prefix w.heap n rows)
    · rw [List.mem_singleton.mp h1]
      exact alloc_ok ..
  | slice k i j =>
    simp only [World.step]
    split
    · exact hw
    · rename_i a ha
      refine ⟨?_, hw.polys⟩
      intro b hb
      rcases List.mem_append.mp hb with h1 | h1
      · exact hw.arrs b h1
      · rw [List.mem_singleton.mp h1]
        exact slice_ok (hw.arrs a (List.mem_of_getElem? ha)) i j
  | write k i j x =>
    simp only [World.step]
    split
    · exact hw
    · split
      · rename_i h' hh
        have hl := write_lengths hh
        refine ⟨fun a ha => ok_of_lengths hl (hw.arrs a ha), fun o ho a ha => ?_⟩
        exact ⟨ok_of_lengths hl (hw.polys o ho a ha).1, (hw.polys o ho a ha).2⟩
      · exact hw
  | takeV p =>
    simp only [World.step]
    split
    · exact hw
    · rename_i o ho
      split
      · exact hw
      · rename_i a ha
        refine ⟨?_, hw.polys⟩
        intro b hb
        rcases List.mem_append.mp hb with h1 | h1
        · exact hw.arrs b h1
        · rw [List.mem_singleton.mp h1]
          exact (hw.polys o (List.mem_of_getElem? ho) a ha).1
  | poly arg closed =>
    simp only [World.step]
    split
    · exact hw
    · rename_i arg' ha
      exact add_ok hw (new_makes (resolve_ok hw ha) closed)
  | setV p arg =>
    simp only [World.step]
    split
    · rename_i o arg' ho ha
      exact mutate_ok hw (setV_refines (hw.polys o (List.mem_of_getElem? ho)) (resolve_ok hw ha))
    · exact hw
  | setClosed p b =>
    simp only [World.step]
    split
    · exact hw
    · rename_i o ho
      exact mutate_ok hw (setClosed_refines (hw.polys o (List.mem_of_getElem? ho)) b)
  | flip p =>
    simp only [World.step]
    split
    · exact hw
    · rename_i o ho
      exact mutate_ok hw (flip_refines (hw.polys o (List.mem_of_getElem? ho)))
  | partition p l =>
    simp only [World.step]
    split
    · exact hw
    · rename_i o ho
      exact mutate_ok hw (partition_refines (hw.polys o (List.mem_of_getElem? ho)) l)
  | copy p =>
    simp only [World.step]
    split
    · exact hw
    · rename_i o ho
      exact add_ok hw (copy_makes (hw.polys o (List.mem_of_getElem? ho)))
  | reindexed p i =>
    simp only [World.step]
    split
    · exact hw
    · exact add_ok hw (fresh_makes ..)
  | cut p pl =>
    simp only [World.step]
    split
    · exact hw
    · exact add_ok hw (fresh_makes ..)

end Blmath.Geometry.Mem
