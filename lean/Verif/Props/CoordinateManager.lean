import Verif.Model.CoordinateManager
import Verif.Props.Composite

/-!
Property C55: the coordinate manager.
-/

namespace Blmath.Props
open Blmath.Geometry Blmath.Spec Blmath.Vx
variable {β : Type}

/-- a program whose transforms can be undone -/
def Program (ops : List (MOp ℝ β)) : Prop := ∀ op, MOp.transform op ∈ ops → Reversible op

/-- tags point into the stack, and every transform can be undone -/
def MgrOk (st : CoordMgr ℝ β) : Prop :=
  (∀ t ∈ st.transform, PairOk t) ∧ ∀ name i, st.tags.get? name = some i → i ≤ st.transform.length

section
variable {α : Type} [Num α] [Trig α]

theorem append4_append (inv) (st : Composite α) (f r) :
    append4 inv st f r = (st ++ (append4 inv [] f r).1, (append4 inv [] f r).2.map (st.length + ·)) := by
  unfold append4
  cases r with
  | some r => simp; rfl
  | none => simp only; split <;> simp <;> rfl

theorem append3_append (inv) (st : Composite α) (f r) : (append3 inv st f r).1 = st ++ (append3 inv [] f r).1 := by
  unfold append3
  split
  · simp
  · cases r with
    | none => rw [append4_append]
    | some r => simp only; split <;> [simp; rw [append4_append]]

theorem scaleT_append (inv) (st : Composite α) (x) : (scaleT inv st x).1 = st ++ (scaleT inv [] x).1 := by
  unfold scaleT
  split
  · simp
  · rw [append3_append]

theorem appendRotation_append (inv) (st : Composite α) (m) : (appendRotation inv st m).1 = st ++ (appendRotation inv [] m).1 := by
  unfold appendRotation
  cases m with
  | error e => simp
  | ok m => exact append3_append _ _ _ _

theorem stepT_append (inv svd) (st : Composite α) (op) : stepT inv svd st op = st ++ stepT inv svd [] op := by
  cases op with
  | append4 f r => simp only [stepT]; rw [append4_append]
  | append3 f r => exact append3_append inv st f r
  | scale x => exact scaleT_append inv st x
  | convertUnits a b =>
    simp only [stepT, convertUnitsT]
    split
    · simp
    · exact scaleT_append inv st _
  | translate v => simp only [stepT, translateT]; rw [append4_append]
  | reorient u l => exact appendRotation_append _ _ _
  | rotate r => exact appendRotation_append _ _ _

theorem runT_append (inv svd) (st : Composite α) (ops) : runT inv svd st ops = st ++ runT inv svd [] ops := by
  induction ops generalizing st with
  | nil => simp [runT]
  | cons op ops ih =>
    have e : ∀ s, runT inv svd s (op :: ops) = runT inv svd (stepT inv svd s op) ops := fun _ => rfl
    rw [e, e, ih, ih (stepT inv svd [] op), stepT_append, List.append_assoc]

end

theorem mstep_ok {inv} (hinv : InvSpec inv) (svd : Svd3 ℝ) {st : CoordMgr ℝ β} (h : MgrOk st) (op : MOp ℝ β)
    (hop : ∀ o, op = .transform o → Reversible o) : MgrOk (st.step inv svd op) := by
  cases op with
  | transform o =>
    refine ⟨step_good hinv svd h.1 o (hop o rfl), ?_⟩
    intro name i hi
    have := h.2 name i hi
    show i ≤ (stepT inv svd st.transform o).length
    rw [stepT_append, List.length_append]; omega
  | tag name =>
    refine ⟨h.1, ?_⟩
    intro n i hi
    simp only [CoordMgr.step, CoordMgr.tagAs, Dict.get?_set] at hi ⊢
    split at hi
    · cases hi; exact le_rfl
    · exact h.2 n i hi
  | set name x =>
    simp only [CoordMgr.step, CoordMgr.setAttr]
    split <;> exact h

theorem mrun_ok {inv} (hinv : InvSpec inv) (svd : Svd3 ℝ) (ops : List (MOp ℝ β)) (hops : Program ops) (st : CoordMgr ℝ β)
    (h : MgrOk st) : MgrOk (st.run inv svd ops) := by
  induction ops generalizing st with
  | nil => exact h
  | cons op ops ih =>
    refine ih (fun o ho => hops o (List.mem_cons_of_mem _ ho)) _ (mstep_ok hinv svd h op ?_)
    rintro o rfl
    exact hops o List.mem_cons_self

theorem mgr_init_ok : MgrOk (CoordMgr.init : CoordMgr ℝ β) :=
  ⟨by simp [CoordMgr.init], by simp [CoordMgr.init]⟩

/-- the position in state 0 of a point given in state `i`, carried to state `j` -/
def carry (ts : Composite ℝ) (i j : ℕ) (p : V3 ℝ) : V3 ℝ := through (ts.take j) (back (ts.take i) p)

theorem pySlice_nat {γ : Type} (xs : List γ) {i j : ℕ} (hi : i ≤ xs.length) (hj : j ≤ xs.length) :
    pySlice xs (i : ℤ) (j : ℤ) = (xs.take j).drop i := by
  unfold pySlice sliceBound
  rw [if_neg (by omega), if_neg (by omega)]
  simp [hi, hj]

theorem take_split {γ : Type} (xs : List γ) {i j : ℕ} (hij : i ≤ j) : xs.take j = xs.take i ++ (xs.take j).drop i := by
  have h := List.take_append_drop i (xs.take j)
  rw [List.take_take, min_eq_left hij] at h
  exact h.symm

theorem through_append (a b : Composite ℝ) (p : V3 ℝ) : through (a ++ b) p = through b (through a p) := by
  simp [through, List.foldl_append]

theorem back_append (a b : Composite ℝ) (p : V3 ℝ) : back (a ++ b) p = back a (back b p) := by
  simp [back, List.foldr_append]

theorem carry_fwd {ts : Composite ℝ} (h : ∀ t ∈ ts, PairOk t) {i j : ℕ} (hij : i ≤ j) (p : V3 ℝ) :
    through ((ts.take j).drop i) p = carry ts i j p := by
  have hi : ∀ t ∈ ts.take i, PairOk t := fun t ht => h t (List.mem_of_mem_take ht)
  have e : carry ts i j p = through (ts.take i ++ (ts.take j).drop i) (back (ts.take i) p) := by
    unfold carry; rw [← take_split ts hij]
  rw [e, through_append, through_back hi]

theorem carry_rev {ts : Composite ℝ} (h : ∀ t ∈ ts, PairOk t) {i j : ℕ} (hij : i ≤ j) (p : V3 ℝ) :
    back ((ts.take j).drop i) p = carry ts j i p := by
  have hi : ∀ t ∈ ts.take i, PairOk t := fun t ht => h t (List.mem_of_mem_take ht)
  have e : carry ts j i p = through (ts.take i) (back (ts.take i ++ (ts.take j).drop i) p) := by
    unfold carry; rw [← take_split ts hij]
  rw [e, back_append, through_back hi]

theorem carry_self {ts : Composite ℝ} (h : ∀ t ∈ ts, PairOk t) (i : ℕ) (p : V3 ℝ) : carry ts i i p = p :=
  through_back (fun t ht => h t (List.mem_of_mem_take ht)) p

theorem carry_carry {ts : Composite ℝ} (h : ∀ t ∈ ts, PairOk t) (i j k : ℕ) (p : V3 ℝ) :
    carry ts j k (carry ts i j p) = carry ts i k p := by
  unfold carry
  rw [back_through (fun t ht => h t (List.mem_of_mem_take ht))]

theorem move_eq {st : CoordMgr ℝ β} (h : MgrOk st) {i j : ℕ} (hi : i ≤ st.transform.length) (hj : j ≤ st.transform.length)
    (ps : List (V3 ℝ)) : st.move (pts ps) i j = .ok (pts (ps.map (carry st.transform i j))) := by
  unfold CoordMgr.move
  split
  · rename_i e
    subst e
    rw [show carry st.transform i i = id from funext (carry_self h.1 i), List.map_id]
  · split
    · rename_i hlt
      rw [call_fwd h.1]
      show Except.ok (pts (ps.map (through (pySlice st.transform (i : ℤ) (j : ℤ))))) = _
      rw [pySlice_nat _ hi hj, show through _ = carry st.transform i j from funext (carry_fwd h.1 hlt.le)]
    · rename_i hne hlt
      rw [call_rev h.1]
      show Except.ok (pts (ps.map (back (pySlice st.transform (j : ℤ) (i : ℤ))))) = _
      rw [pySlice_nat _ hj hi, show back _ = carry st.transform i j from funext (carry_rev h.1 (by omega))]

/-- an array of points, or a mesh carrying the points as its `v` -/
def carrier (rest : Option β) (ps : List (V3 ℝ)) : PointsOrMesh ℝ β :=
  match rest with
  | none => .points (pts ps)
  | some r => .mesh (some (pts ps)) r

theorem doTransform_eq {ver} {st : CoordMgr ℝ β} (h : MgrOk st) {a b : String} {i j : ℕ} (ha : st.tags.get? a = some i)
    (hb : st.tags.get? b = some j) (rest : Option β) (ps : List (V3 ℝ)) :
    st.doTransform ver (carrier rest ps) a b = .ok (carrier rest (ps.map (carry st.transform i j))) := by
  have hm := move_eq h (h.2 a i ha) (h.2 b j hb) ps
  cases rest <;> simp [carrier, CoordMgr.doTransform, CoordMgr.index, ha, hb, hm]

/-- **C55.** After any program: moving points (or a mesh) from tag `a` to `b` and then from `b` to `c`
equals moving them from `a` to `c`; from `a` to `a` nothing changes. -/
theorem C55_path (inv : Mat 4 4 ℝ → PyM (Mat 4 4 ℝ)) (hinv : InvSpec inv) (svd : Svd3 ℝ) (ver : PyVer) (ops : List (MOp ℝ β))
    (hops : Program ops) (a b c : String) (rest : Option β) (ps : List (V3 ℝ)) :
    let st := CoordMgr.init.run inv svd ops
    st.tags.contains a → st.tags.contains b → st.tags.contains c →
    ∃ qs rs, st.doTransform ver (carrier rest ps) a b = .ok (carrier rest qs) ∧
      st.doTransform ver (carrier rest qs) b c = .ok (carrier rest rs) ∧
      st.doTransform ver (carrier rest ps) a c = .ok (carrier rest rs) ∧
      st.doTransform ver (carrier rest qs) b a = .ok (carrier rest ps) ∧
      st.doTransform ver (carrier rest ps) a a = .ok (carrier rest ps) := by
  intro st ha hb hc
  have h : MgrOk st := mrun_ok hinv svd ops hops _ mgr_init_ok
  obtain ⟨i, hi⟩ := Option.isSome_iff_exists.mp ha
  obtain ⟨j, hj⟩ := Option.isSome_iff_exists.mp hb
  obtain ⟨k, hk⟩ := Option.isSome_iff_exists.mp hc
  have cc : ∀ x y z, carry st.transform y z ∘ carry st.transform x y = carry st.transform x z :=
    fun x y z => funext (carry_carry h.1 x y z)
  have cs : ∀ x, carry st.transform x x = id := fun x => funext (carry_self h.1 x)
  refine ⟨_, _, doTransform_eq h hi hj rest ps, doTransform_eq h hj hk rest _, ?_, ?_, ?_⟩
  · rw [doTransform_eq h hi hk, List.map_map, cc]
  · rw [doTransform_eq h hj hi, List.map_map, cc, cs, List.map_id]
  · rw [doTransform_eq h hi hi, cs, List.map_id]

/-- running transforms only -/
theorem mrun_transforms (inv svd) (st : CoordMgr ℝ β) (ops : List (TOp ℝ)) :
    st.run inv svd (ops.map .transform) = { st with transform := runT inv svd st.transform ops } := by
  induction ops generalizing st with
  | nil => rfl
  | cons op ops ih =>
    show CoordMgr.run inv svd (st.step inv svd (.transform op)) (ops.map .transform) = _
    rw [ih]; rfl

/-- **C55.** What the frames mean: if after any program the current state is tagged `a`, then some
transforms are applied, and the state is tagged `b`, then moving from `a` to `b` is applying exactly
those transforms in order, and moving from `b` to `a` is undoing them. -/
theorem C55_frames (inv : Mat 4 4 ℝ → PyM (Mat 4 4 ℝ)) (hinv : InvSpec inv) (svd : Svd3 ℝ) (ver : PyVer) (ops : List (MOp ℝ β))
    (hops : Program ops) (mid : List (TOp ℝ)) (hmid : ∀ op ∈ mid, Reversible op) (a b : String) (hab : a ≠ b) (ps : List (V3 ℝ)) :
    let st := (CoordMgr.init : CoordMgr ℝ β).run inv svd (ops ++ [.tag a] ++ mid.map .transform ++ [.tag b])
    st.doTransform ver (.points (pts ps)) a b = (callT (runT inv svd [] mid) (pts ps) none false).map .points ∧
    st.doTransform ver (.points (pts ps)) b a = (callT (runT inv svd [] mid) (pts ps) none true).map .points := by
  intro st
  have h0 : MgrOk ((CoordMgr.init : CoordMgr ℝ β).run inv svd ops) := mrun_ok hinv svd ops hops _ mgr_init_ok
  obtain ⟨s0, hs0⟩ : ∃ s, s = (CoordMgr.init : CoordMgr ℝ β).run inv svd ops := ⟨_, rfl⟩
  have hst : st = CoordMgr.tagAs { s0.tagAs a with transform := s0.transform ++ runT inv svd [] mid } b := by
    show (ops ++ [MOp.tag a] ++ mid.map MOp.transform ++ [MOp.tag b]).foldl (CoordMgr.step inv svd) CoordMgr.init = _
    rw [List.foldl_append, List.foldl_append, List.foldl_append]
    show CoordMgr.tagAs (CoordMgr.run inv svd (CoordMgr.tagAs ((CoordMgr.init : CoordMgr ℝ β).run inv svd ops) a) (mid.map .transform)) b = _
    rw [mrun_transforms, ← hs0, runT_append]; rfl
  have hprog : Program (ops ++ [.tag a] ++ mid.map .transform ++ [.tag b] : List (MOp ℝ β)) := by
    intro op hop
    simp only [List.mem_append, List.mem_singleton, List.mem_map, reduceCtorEq, or_false] at hop
    rcases hop with hop | ⟨o, ho, h⟩
    · exact hops op hop
    · cases h; exact hmid _ ho
  have h : MgrOk st := mrun_ok hinv svd _ hprog _ mgr_init_ok
  have hm := run_good hinv svd mid hmid [] (by simp)
  have ha : st.tags.get? a = some s0.transform.length := by
    rw [hst]; simp [CoordMgr.tagAs, Dict.get?_set, hab]
  have hb : st.tags.get? b = some (s0.transform.length + (runT inv svd [] mid).length) := by
    rw [hst]; simp [CoordMgr.tagAs, Dict.get?_set]
  have htr : st.transform = s0.transform ++ runT inv svd [] mid := by rw [hst]; rfl
  have hs : (st.transform.take (s0.transform.length + (runT inv svd [] mid).length)).drop s0.transform.length = runT inv svd [] mid := by
    rw [htr, ← List.length_append, List.take_length, List.drop_left]
  constructor
  · rw [call_fwd hm]
    have := doTransform_eq (ver := ver) h ha hb none ps
    simp only [carrier] at this
    rw [this, ← show through _ = carry st.transform _ _ from funext (carry_fwd h.1 (Nat.le_add_right _ _)), hs]
    rfl
  · rw [call_rev hm]
    have := doTransform_eq (ver := ver) h hb ha none ps
    simp only [carrier] at this
    rw [this, ← show back _ = carry st.transform _ _ from funext (carry_rev h.1 (Nat.le_add_right _ _)), hs]
    rfl

/-- **C55.** Reading the tag just set returns exactly what was set, whatever it is; reading another
tag moves it there.  (The names are not those of the manager's own attributes.) -/
theorem C55_read (ver : PyVer) (st : CoordMgr ℝ β) (a : String) (x : PointsOrMesh ℝ β)
    (ha : st.tags.contains a) :
    (st.setAttr a x).2 = .ok () ∧
    (a ∉ ownNames → a ≠ "points_or_mesh" → (st.setAttr a x).1.getAttr ver a = .ok (.value x)) ∧
    ∀ b, b ∉ ownNames → b ≠ "points_or_mesh" →
      (st.setAttr a x).1.getAttr ver b = (st.doTransform ver x a b).map .value := by
  have e : st.setAttr a x = ({ st with pointsTag := some a, pom := some x }, .ok ()) := by
    unfold CoordMgr.setAttr; rw [if_pos ha]
  have hb : ∀ b, b ∉ ownNames → b ≠ "points_or_mesh" →
      (st.setAttr a x).1.getAttr ver b = (st.doTransform ver x a b).map .value := by
    intro b h1 h2
    rw [e]
    simp only [CoordMgr.getAttr, if_neg h1, if_neg h2]
    show (st.doTransform ver x a b >>= fun r => pure (Attr.value r)) = _
    cases st.doTransform ver x a b <;> rfl
  refine ⟨by rw [e], ?_, hb⟩
  intro h1 h2
  rw [hb a h1 h2]
  obtain ⟨i, hi⟩ := Option.isSome_iff_exists.mp ha
  have hx : st.doTransform ver x a a = .ok x := by
    cases x with
    | points p => simp [CoordMgr.doTransform, CoordMgr.index, hi, CoordMgr.move]
    | mesh v r => cases v <;> simp [CoordMgr.doTransform, CoordMgr.index, hi, CoordMgr.move]
  rw [hx]; rfl

/-- **C55.** Errors: assigning to an unknown tag raises AttributeError and changes nothing; reading
before anything was set raises ValueError; an unknown tag raises KeyError on Python 2 and
AttributeError on Python 3. -/
theorem C55_errors (ver : PyVer) (st : CoordMgr ℝ β) :
    (∀ a x, st.tags.contains a = false → st.setAttr a x = (st, .error .AttributeError)) ∧
    (∀ a, a ∉ ownNames → st.pointsTag = none → st.getAttr ver a = .error .ValueError) ∧
    (∀ a b v, (st.tags.contains a = false ∨ st.tags.contains b = false) →
      st.doTransform ver (.points v) a b = .error (if ver = .py2 then .KeyError else .AttributeError) ∧
      ∀ r, st.doTransform ver (.mesh (some v) r) a b = .error (if ver = .py2 then .KeyError else .AttributeError)) := by
  refine ⟨?_, ?_, ?_⟩
  · intro a x h
    unfold CoordMgr.setAttr
    rw [if_neg (by simp [h])]
  · intro a h1 h2
    unfold CoordMgr.getAttr
    rw [if_neg h1]; simp only [h2]
  · have bad : ∀ t, st.tags.contains t = false → st.index ver t = .error (if ver = .py2 then .KeyError else .AttributeError) := by
      intro t ht
      have : st.tags.get? t = none := by simpa [Dict.contains] using ht
      unfold CoordMgr.index
      rw [this]
      cases ver <;> rfl
    intro a b v h
    by_cases ha : st.tags.contains a = true
    · obtain ⟨i, hi⟩ := Option.isSome_iff_exists.mp ha
      have hb : st.tags.contains b = false := by
        rcases h with h | h
        · rw [ha] at h; cases h
        · exact h
      have hia : st.index ver a = .ok i := by unfold CoordMgr.index; rw [hi]
      simp [CoordMgr.doTransform, hia, bad b hb]
    · have ha' : st.tags.contains a = false := by simpa using ha
      simp [CoordMgr.doTransform, bad a ha']

/-- **C55.** Before the first assignment `points_tag` is None, whatever transforms and tags there are. -/
theorem C55_unset (inv : Mat 4 4 ℝ → PyM (Mat 4 4 ℝ)) (svd : Svd3 ℝ) (ops : List (MOp ℝ β)) (h : ∀ a x, MOp.set a x ∉ ops) :
    ((CoordMgr.init : CoordMgr ℝ β).run inv svd ops).pointsTag = none := by
  have : ∀ (st : CoordMgr ℝ β), st.pointsTag = none → (st.run inv svd ops).pointsTag = none := by
    induction ops with
    | nil => intro st h; exact h
    | cons op ops ih =>
      intro st hs
      refine ih (fun a x hm => h a x (List.mem_cons_of_mem _ hm)) _ ?_
      cases op with
      | transform o => exact hs
      | tag n => exact hs
      | set a x => exact absurd List.mem_cons_self (h a x)
  exact this _ rfl

/-- **C55.** A mesh without vertices comes back as it is, even for unknown tags. -/
theorem C55_no_vertices (ver : PyVer) (st : CoordMgr ℝ β) (r : β) (a b : String) :
    st.doTransform ver (.mesh none r) a b = .ok (.mesh none r) := rfl

/-- **C55.** Witness that the restriction on names is needed: a tag called `scale` can be created and
assigned to, but reading it gives the method. -/
theorem C55_shadowed (ver : PyVer) (x : PointsOrMesh ℝ β) :
    let st := (CoordMgr.init : CoordMgr ℝ β).tagAs "scale"
    (st.setAttr "scale" x).2 = .ok () ∧ (st.setAttr "scale" x).1.getAttr ver "scale" = .ok (.own "scale") := by
  constructor
  · simp [CoordMgr.setAttr, CoordMgr.tagAs, CoordMgr.init, Dict.contains, Dict.set, Dict.get?]
  · simp [CoordMgr.setAttr, CoordMgr.tagAs, CoordMgr.init, Dict.contains, Dict.set, Dict.get?, CoordMgr.getAttr, ownNames]

/-- **C55.** The names of the methods and of the manager's entries always read as such, and tags of one of the usual forms never do. -/
theorem C55_own (ver : PyVer) (st : CoordMgr ℝ β) :
    (∀ a ∈ ["append_transform4", "append_transform3", "scale", "convert_units", "translate", "reorient", "rotate", "tag_as",
      "do_transform", "tags_to_indices", "points_tag", "points", "_transform", "__init__", "__setattr__", "__getattr__", "__dict__",
      "__class__"], st.getAttr ver a = .ok (.own a)) ∧
    ∀ a ∈ ["source", "floored", "floored_and_scaled", "centered_at_origin", "tag", "point", "transform", "", "_", "__len__",
      "__iter__", "v", "f"], ∀ r, st.getAttr ver a ≠ .ok (.own r) := by
  constructor
  · intro a ha
    have : a ∈ ownNames := by
      simp only [List.mem_cons, List.not_mem_nil, or_false] at ha
      rcases ha with rfl | rfl | rfl | rfl | rfl | rfl | rfl | rfl | rfl | rfl | rfl | rfl | rfl | rfl | rfl | rfl | rfl | rfl <;>
        simp [ownNames]
    rw [CoordMgr.getAttr, if_pos this]
  · intro a ha r
    have : a ∉ ownNames ∧ a ≠ "points_or_mesh" := by
      simp only [List.mem_cons, List.not_mem_nil, or_false] at ha
      rcases ha with rfl | rfl | rfl | rfl | rfl | rfl | rfl | rfl | rfl | rfl | rfl | rfl | rfl <;> simp [ownNames]
    rw [CoordMgr.getAttr, if_neg this.1]
    cases st.pointsTag with
    | none => simp
    | some t =>
      cases st.pom with
      | none => simp
      | some x =>
        simp only [if_neg this.2]
        cases st.doTransform ver x t a <;> simp

/-- **C55.** Using a tag again moves it: the points set before are then read in the new frame. -/
theorem C55_retag (st : CoordMgr ℝ β) (a b : String) :
    (st.tagAs a).tags.get? a = some st.transform.length ∧ (b ≠ a → (st.tagAs a).tags.get? b = st.tags.get? b) ∧
    (st.tagAs a).transform = st.transform ∧ (st.tagAs a).pointsTag = st.pointsTag ∧ (st.tagAs a).pom = st.pom := by
  refine ⟨by simp [CoordMgr.tagAs], fun h => by simp [CoordMgr.tagAs, Dict.get?_set, h], rfl, rfl, rfl⟩

/-- non-vacuity: the example of the class comment -/
def demo : List (MOp ℝ Unit) :=
  [.tag "source", .transform (.translate ⟨1, 2, 3⟩), .transform (.scale 2), .tag "floored_and_scaled",
    .transform (.translate ⟨0, -4, 0⟩), .tag "centered_at_origin"]

theorem demo_program : Program demo := by
  intro op h
  simp only [demo, List.mem_cons, List.not_mem_nil, reduceCtorEq, false_or, or_false, MOp.transform.injEq] at h
  rcases h with rfl | rfl | rfl <;> trivial

example (svd : Svd3 ℝ) (ver : PyVer) : ∃ qs rs : List (V3 ℝ),
    let st := (CoordMgr.init : CoordMgr ℝ Unit).run exactInv svd demo
    st.doTransform ver (.points (pts [⟨1, 1, 1⟩])) "source" "floored_and_scaled" = .ok (.points (pts qs)) ∧
    st.doTransform ver (.points (pts qs)) "floored_and_scaled" "centered_at_origin" = .ok (.points (pts rs)) ∧
    st.doTransform ver (.points (pts [⟨1, 1, 1⟩])) "source" "centered_at_origin" = .ok (.points (pts rs)) := by
  have hlen : ∀ (a : Composite ℝ) (v : V3 ℝ), (stepT exactInv svd a (.translate v)).length = a.length + 1 := by
    intro a v; simp [stepT, translateT, append4]
  have hsc : ∀ (a : Composite ℝ), (stepT exactInv svd a (.scale 2)).length = a.length + 1 := by
    intro a
    obtain ⟨F, R, h, -⟩ := (C54_push exactInv svd a).1 2 two_pos
    simp only [stepT, h]; simp
  have ht : ((CoordMgr.init : CoordMgr ℝ Unit).run exactInv svd demo).tags =
      [("source", 0), ("floored_and_scaled", 2), ("centered_at_origin", 3)] := by
    simp [demo, CoordMgr.run, CoordMgr.step, CoordMgr.tagAs, CoordMgr.init, Dict.set, hlen, hsc]
  obtain ⟨qs, rs, h1, h2, h3, -, -⟩ := C55_path exactInv exactInv_spec svd ver demo demo_program "source" "floored_and_scaled" "centered_at_origin"
    none [⟨1, 1, 1⟩] (by rw [ht]; decide) (by rw [ht]; decide) (by rw [ht]; decide)
  exact ⟨qs, rs, h1, h2, h3⟩

end Blmath.Props
