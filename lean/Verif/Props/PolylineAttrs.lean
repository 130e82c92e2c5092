import Verif.Model.PolylineAttrs
import Verif.Props.Polyline

/-!
Property C99: reading, assigning and deleting the attributes of a polyline.
-/

namespace Blmath.Props
open Blmath.Geometry Blmath.Geometry.Attrs Blmath.Spec

variable {α : Type} [Num α]

namespace PA

/-- what `e` should be for given `v` and `closed`: None without vertices, else the edges of a chain that is closed if `closed` is true.
Nothing if `closed` has no truth value, or is true while there is an array of no vertices. -/
inductive EdgesFor : PyObj α → PyObj α → PyObj α → Prop
  | none (c) : EdgesFor .none c .none
  | chain (n rows c b) (ht : truth c = .ok b) (hb : b = true → rows ≠ []) :
      EdgesFor (.array n rows) c (.edges (chainEdges rows.length b))

/-- the entry `e` is what it should be, if anything -/
def Settled (d : Inst α) : Prop :=
  ∀ x, EdgesFor (descriptorGet d "v") (descriptorGet d "closed") x → d.get? "e" = some x

/-- what may be in the entry `v` -/
def VertsOk (d : Inst α) : Prop := ∃ v, descriptorGet d "v" = ofPoints v

/-- the method `_update_edges` is not hidden by an entry of the object -/
def Unhidden (d : Inst α) : Prop := d.get? "_update_edges" = none

/-- not an assignment to `_update_edges` -/
def Plain : Op α → Prop
  | .set name _ => name ≠ "_update_edges"
  | .del _ => True

theorem dget_set (d : Inst α) (k k' : String) (x : PyObj α) :
    descriptorGet (d.set k x) k' = if k' = k then x else descriptorGet d k' := by
  unfold descriptorGet
  rw [Dict.get?_set]
  by_cases h : k' = k <;> simp [h]

theorem get_del_ne (d : Inst α) (k k' : String) (h : k' ≠ k) : (d.del k).get? k' = d.get? k' := by
  induction d with
  | nil => rfl
  | cons kv d ih =>
    obtain ⟨a, b⟩ := kv
    unfold Dict.del
    by_cases hk : a = k
    · subst hk
      simp [Dict.get?_cons, ih, Ne.symm h]
    · simp [hk, Dict.get?_cons, ih]


theorem keys_set (d : Inst α) (k : String) (x : PyObj α) (h : d.keys.Nodup) : (d.set k x).keys.Nodup := by
  induction d with
  | nil => simp [Dict.set, Dict.keys]
  | cons kv d ih =>
    obtain ⟨a, b⟩ := kv
    have hd : (Dict.keys d).Nodup := (List.nodup_cons.mp h).2
    have ha : a ∉ Dict.keys d := (List.nodup_cons.mp h).1
    unfold Dict.set
    by_cases hk : a = k
    · subst hk
      simp only [if_true]
      exact h
    · simp only [hk, if_false]
      refine List.nodup_cons.mpr ⟨?_, ih hd⟩
      intro hm
      have hm' := (Dict.mem_keys_iff _ _).mp hm
      unfold Dict.contains at hm'
      rw [Dict.get?_set_ne d x hk] at hm'
      exact ha ((Dict.mem_keys_iff _ _).mpr hm')

theorem mem_del (d : Inst α) (k a : String) (h : a ∈ (d.del k).keys) : a ∈ d.keys := by
  induction d with
  | nil => exact h
  | cons kv d ih =>
    obtain ⟨b, c⟩ := kv
    unfold Dict.del at h
    by_cases hk : b = k
    · simp only [hk, if_true] at h
      exact List.mem_cons_of_mem _ h
    · simp only [hk, if_false] at h
      rcases List.mem_cons.mp h with h | h
      · exact List.mem_cons.mpr (Or.inl h)
      · exact List.mem_cons_of_mem _ (ih h)

theorem keys_del (d : Inst α) (k : String) (h : d.keys.Nodup) : (d.del k).keys.Nodup := by
  induction d with
  | nil => exact h
  | cons kv d ih =>
    obtain ⟨a, b⟩ := kv
    have hd : (Dict.keys d).Nodup := (List.nodup_cons.mp h).2
    have ha : a ∉ Dict.keys d := (List.nodup_cons.mp h).1
    unfold Dict.del
    by_cases hk : a = k
    · simpa [hk] using hd
    · simp only [hk, if_false]
      exact List.nodup_cons.mpr ⟨fun hm => ha (mem_del d k a hm), ih hd⟩

theorem get_del_same (d : Inst α) (k : String) (h : d.keys.Nodup) : (d.del k).get? k = none := by
  induction d with
  | nil => rfl
  | cons kv d ih =>
    obtain ⟨a, b⟩ := kv
    have hd : (Dict.keys d).Nodup := (List.nodup_cons.mp h).2
    have ha : a ∉ Dict.keys d := (List.nodup_cons.mp h).1
    unfold Dict.del
    by_cases hk : a = k
    · subst hk
      simp only [if_true]
      rw [Dict.mem_keys_iff] at ha
      simpa [Dict.contains] using ha
    · simp only [hk, if_false, Dict.get?_cons]
      exact ih hd

/-- what `_update_edges` does to one entry -/
theorem updateEdges_get (d : Inst α) (k : String) (h : k ≠ "e") : (updateEdges d).1.get? k = d.get? k := by
  unfold updateEdges
  split
  · exact Dict.get?_set_ne _ _ h
  · split
    · rfl
    · split
      · exact Dict.get?_set_ne _ _ h
      · rfl
  · rfl

theorem callUpdateEdges_get (d : Inst α) (k : String) (h : k ≠ "e") : (callUpdateEdges d).1.get? k = d.get? k := by
  unfold callUpdateEdges
  split
  · rfl
  · exact updateEdges_get d k h

theorem dget_congr {d d' : Inst α} {k : String} (h : d'.get? k = d.get? k) : descriptorGet d' k = descriptorGet d k := by
  unfold descriptorGet
  rw [h]

/-- `_update_edges`: the edges are those that belong to `v` and `closed`, if there are such; else it raises and keeps the old ones -/
theorem updateEdges_cases (d : Inst α) (hv : VertsOk d) :
    ((updateEdges d).2 = .ok () ∧
      ∃ x, EdgesFor (descriptorGet d "v") (descriptorGet d "closed") x ∧ (updateEdges d).1.get? "e" = some x) ∨
    ((∃ err, (updateEdges d).2 = .error err) ∧ (updateEdges d).1 = d ∧
      ∀ x, ¬ EdgesFor (descriptorGet d "v") (descriptorGet d "closed") x) := by
  obtain ⟨v, hv⟩ := hv
  unfold updateEdges
  rw [hv]
  cases v with
  | none => exact Or.inl ⟨rfl, .none, .none _, Dict.get?_set_same _ _ _⟩
  | some ps =>
    simp only [ofPoints]
    cases ht : truth (descriptorGet d "closed") with
    | error err =>
      refine Or.inr ⟨⟨err, rfl⟩, rfl, ?_⟩
      intro x hx
      cases hx with
      | chain _ _ _ b hb _ => rw [ht] at hb; cases hb
    | ok b =>
      by_cases h : b = true ∧ ps.map V3.toList = []
      · obtain ⟨rfl, h2⟩ := h
        rw [h2]
        refine Or.inr ⟨⟨.IndexError, rfl⟩, rfl, ?_⟩
        intro x hx
        cases hx with
        | chain _ _ _ b hb hne =>
          rw [ht] at hb
          injection hb with hb
          exact hne hb.symm rfl
      · have hm : ∀ _ : b = true, (ps.map V3.toList).length ≠ 0 := by
          intro hb h0
          exact h ⟨hb, List.length_eq_zero_iff.mp h0⟩
        simp only [Proofs.mkEdges_eq _ _ hm]
        refine Or.inl ⟨trivial, _, .chain 3 _ _ b ht (fun hb h0 => h ⟨hb, h0⟩), Dict.get?_set_same _ _ _⟩


theorem edgesFor_unique {v c x y : PyObj α} (hx : EdgesFor v c x) (hy : EdgesFor v c y) : x = y := by
  cases hx with
  | none => cases hy; rfl
  | chain n rows c b ht hb =>
    cases hy with
    | chain n' rows' c' b' ht' hb' =>
      rw [ht] at ht'
      cases ht'
      rfl

/-- everything that holds of a constructed polyline after any history -/
structure Inv (d : Inst α) : Prop where
  settled : Settled d
  verts : VertsOk d
  hasE : ∃ x, d.get? "e" = some x
  unhidden : Unhidden d
  nodup : (Dict.keys d).Nodup

theorem callUpdateEdges_eq (d : Inst α) (h : Unhidden d) : callUpdateEdges d = updateEdges d := by
  unfold callUpdateEdges Dict.contains
  rw [h]
  rfl

theorem keys_updateEdges (d : Inst α) (h : (Dict.keys d).Nodup) : (Dict.keys (callUpdateEdges d).1).Nodup := by
  unfold callUpdateEdges updateEdges
  split
  · exact h
  · split
    · exact keys_set _ _ _ h
    · split
      · exact h
      · split
        · exact keys_set _ _ _ h
        · exact h
    · exact h

/-- updating the edges establishes the invariant -/
theorem inv_update (d : Inst α) (hv : VertsOk d) (hu : Unhidden d) (hn : (Dict.keys d).Nodup) (he : ∃ x, d.get? "e" = some x) :
    Inv (callUpdateEdges d).1 := by
  have hV := dget_congr (callUpdateEdges_get d "v" (by decide))
  have hC := dget_congr (callUpdateEdges_get d "closed" (by decide))
  refine ⟨?_, ?_, ?_, ?_, keys_updateEdges d hn⟩
  · intro x hx
    rw [hV, hC] at hx
    rw [callUpdateEdges_eq d hu]
    rcases updateEdges_cases d hv with ⟨_, y, hy, h⟩ | ⟨_, _, h⟩
    · rw [h]
      rw [edgesFor_unique hy hx]
    · exact absurd hx (h x)
  · obtain ⟨v, hv⟩ := hv
    exact ⟨v, hV.trans hv⟩
  · rw [callUpdateEdges_eq d hu]
    rcases updateEdges_cases d hv with ⟨_, y, hy, h⟩ | ⟨_, h, _⟩
    · exact ⟨y, h⟩
    · rw [h]; exact he
  · exact (callUpdateEdges_get d _ (by decide)).trans hu


theorem set_unhidden (d : Inst α) (k : String) (x : PyObj α) (h : Unhidden d) (hk : k ≠ "_update_edges") : Unhidden (d.set k x) :=
  (Dict.get?_set_ne d x (Ne.symm hk)).trans h

theorem inv_frame (d d' : Inst α) (h : Inv d) (hv : d'.get? "v" = d.get? "v") (hc : d'.get? "closed" = d.get? "closed")
    (he : d'.get? "e" = d.get? "e") (hu : Unhidden d') (hn : (Dict.keys d').Nodup) : Inv d' := by
  refine ⟨?_, ?_, ?_, hu, hn⟩
  · intro x hx
    rw [dget_congr hv, dget_congr hc] at hx
    rw [he]
    exact h.settled x hx
  · obtain ⟨v, h⟩ := h.verts
    exact ⟨v, (dget_congr hv).trans h⟩
  · rw [he]; exact h.hasE

theorem inv_setV (d : Inst α) (val : PyObj α) (h : Inv d) : Inv (setV d val).1 := by
  unfold setV
  split
  · exact h
  · rename_i v _
    refine inv_update _ ⟨v, ?_⟩ (set_unhidden _ _ _ h.unhidden (by decide)) (keys_set _ _ _ h.nodup) ?_
    · rw [dget_set]; rfl
    · rw [Dict.get?_set_ne _ _ (by decide)]; exact h.hasE

theorem inv_setClosed (d : Inst α) (val : PyObj α) (h : Inv d) : Inv (setClosed d val).1 := by
  unfold setClosed
  refine inv_update _ ?_ (set_unhidden _ _ _ h.unhidden (by decide)) (keys_set _ _ _ h.nodup) ?_
  · obtain ⟨v, hv⟩ := h.verts
    refine ⟨v, ?_⟩
    rw [dget_set, if_neg (by decide)]
    exact hv
  · rw [Dict.get?_set_ne _ _ (by decide)]; exact h.hasE

theorem ne_of_not_mem {name : String} (h1 : name ∉ setters) (h2 : name ∉ readOnly) :
    "v" ≠ name ∧ "closed" ≠ name ∧ "e" ≠ name := by
  refine ⟨?_, ?_, ?_⟩
  · rintro rfl; exact h1 (by decide)
  · rintro rfl; exact h1 (by decide)
  · rintro rfl; exact h2 (by decide)

theorem inv_step (d : Inst α) (op : Op α) (hp : Plain op) (h : Inv d) : Inv (step d op).1 := by
  cases op with
  | set name val =>
    simp only [step, setAttr]
    split
    · unfold descriptorSet
      split
      · exact inv_setV d val h
      · exact inv_setClosed d val h
    · rename_i h1
      split
      · exact h
      · rename_i h2
        obtain ⟨a, b, c⟩ := ne_of_not_mem h1 h2
        exact inv_frame d _ h (Dict.get?_set_ne _ _ a) (Dict.get?_set_ne _ _ b) (Dict.get?_set_ne _ _ c)
          (set_unhidden _ _ _ h.unhidden hp) (keys_set _ _ _ h.nodup)
  | del name =>
    simp only [step, delAttr]
    split
    · unfold descriptorDelete descriptorSet
      split
      · exact inv_setV d _ h
      · exact inv_setClosed d _ h
    · rename_i h1
      split
      · exact h
      · rename_i h2
        obtain ⟨a, b, c⟩ := ne_of_not_mem h1 h2
        split
        · refine inv_frame d _ h (get_del_ne _ _ _ a) (get_del_ne _ _ _ b) (get_del_ne _ _ _ c) ?_ (keys_del _ _ h.nodup)
          unfold Unhidden
          by_cases hk : name = "_update_edges"
          · subst hk
            exact get_del_same _ _ h.nodup
          · rw [get_del_ne _ _ _ (Ne.symm hk)]; exact h.unhidden
        · exact h

theorem inv_run (ops : List (Op α)) : ∀ (d : Inst α), Inv d → (∀ op ∈ ops, Plain op) → Inv (run d ops) := by
  induction ops with
  | nil => intro d h _; exact h
  | cons op ops ih =>
    intro d h hp
    exact ih _ (inv_step d op (hp op (by simp)) h) (fun o ho => hp o (by simp [ho]))

theorem inv_init (v closed : PyObj α) (h : (init v closed).2 = .ok ()) : Inv (init v closed).1 := by
  unfold init setV at *
  cases hp : asPoints (asVArg v) with
  | error err => rw [hp] at h; cases h
  | ok w =>
    rw [hp] at h
    simp only at h ⊢
    set d : Inst α := Dict.set (Dict.set [] "closed" closed) "v" (ofPoints w) with hd
    have hv : VertsOk d := ⟨w, by rw [hd, dget_set]; rfl⟩
    have hu : Unhidden d := by rw [hd]; rfl
    have hn : (Dict.keys d).Nodup := keys_set _ _ _ (keys_set _ _ _ List.nodup_nil)
    rw [callUpdateEdges_eq d hu] at h
    rcases updateEdges_cases d hv with ⟨_, y, hy, he⟩ | ⟨⟨err, he⟩, _⟩
    · have hV := dget_congr (updateEdges_get d "v" (by decide))
      have hC := dget_congr (updateEdges_get d "closed" (by decide))
      rw [callUpdateEdges_eq d hu]
      refine ⟨?_, ⟨w, hV.trans (by rw [hd, dget_set]; rfl)⟩, ⟨y, he⟩, (updateEdges_get d _ (by decide)).trans hu, ?_⟩
      · intro x hx
        rw [hV, hC] at hx
        rw [he, edgesFor_unique hy hx]
      · rw [← callUpdateEdges_eq d hu]; exact keys_updateEdges d hn
    · rw [he] at h; cases h


theorem setV_get (d : Inst α) (val : PyObj α) (k : String) (h1 : k ≠ "v") (h2 : k ≠ "e") : (setV d val).1.get? k = d.get? k := by
  unfold setV
  split
  · rfl
  · rw [callUpdateEdges_get _ _ h2]
    exact Dict.get?_set_ne _ _ h1

theorem setClosed_get (d : Inst α) (val : PyObj α) (k : String) (h1 : k ≠ "closed") (h2 : k ≠ "e") :
    (setClosed d val).1.get? k = d.get? k := by
  unfold setClosed
  rw [callUpdateEdges_get _ _ h2]
  exact Dict.get?_set_ne _ _ h1

/-- `d` shows the polyline `p` of `Model/Polyline.lean` -/
structure Shows (d : Inst α) (p : Polyline α) : Prop where
  v : descriptorGet d "v" = ofPoints p.v
  closed : truth (descriptorGet d "closed") = .ok p.closed
  e : d.get? "e" = some (match p.e with | none => .none | some es => .edges es)
  unhidden : Unhidden d

theorem shows_update (d : Inst α) (p : Polyline α) (hv : descriptorGet d "v" = ofPoints p.v)
    (hc : truth (descriptorGet d "closed") = .ok p.closed)
    (he : d.get? "e" = some (match p.e with | none => .none | some es => .edges es) ∨ (callUpdateEdges d).2 = .ok ()) (hu : Unhidden d) :
    ((callUpdateEdges d).2 = .ok () → Shows (callUpdateEdges d).1 p.updateEdges.1) ∧
    (d.get? "e" = some (match p.e with | none => .none | some es => .edges es) → Shows (callUpdateEdges d).1 p.updateEdges.1) ∧
    (callUpdateEdges d).2 = p.updateEdges.2 := by
  have hV := dget_congr (callUpdateEdges_get d "v" (by decide))
  have hC := dget_congr (callUpdateEdges_get d "closed" (by decide))
  have hU := (callUpdateEdges_get d "_update_edges" (by decide)).trans hu
  rw [callUpdateEdges_eq d hu] at *
  cases hpv : p.v with
  | none =>
    have e1 : updateEdges d = (d.set "e" .none, .ok ()) := by
      unfold updateEdges; rw [hv, hpv]; rfl
    have e2 : p.updateEdges = ({ p with e := none }, .ok ()) := by
      unfold Polyline.updateEdges; rw [hpv]
    have : Shows (updateEdges d).1 p.updateEdges.1 := by
      refine ⟨?_, ?_, ?_, hU⟩
      · rw [hV, hv, e2]
      · rw [hC, hc, e2]
      · rw [e1, e2]; exact Dict.get?_set_same _ _ _
    exact ⟨fun _ => this, fun _ => this, by rw [e1, e2]⟩
  | some ps =>
    cases hm : mkEdges ps.length p.closed with
    | ok es =>
      have e1 : updateEdges d = (d.set "e" (.edges es), .ok ()) := by
        unfold updateEdges; rw [hv, hpv]; simp only [ofPoints, hc, List.length_map, hm]
      have e2 : p.updateEdges = ({ p with e := some es }, .ok ()) := by
        unfold Polyline.updateEdges; rw [hpv]; simp only [hm]
      have : Shows (updateEdges d).1 p.updateEdges.1 := by
        refine ⟨?_, ?_, ?_, hU⟩
        · rw [hV, hv, e2]
        · rw [hC, hc, e2]
        · rw [e1, e2]; exact Dict.get?_set_same _ _ _
      exact ⟨fun _ => this, fun _ => this, by rw [e1, e2]⟩
    | error err =>
      have e1 : updateEdges d = (d, .error err) := by
        unfold updateEdges; rw [hv, hpv]; simp only [ofPoints, hc, List.length_map, hm]
      have e2 : p.updateEdges = (p, .error err) := by
        unfold Polyline.updateEdges; rw [hpv]; simp only [hm]
      rw [e1, e2]
      refine ⟨fun h => ?_, fun h => ⟨hv, hc, h, hu⟩, rfl⟩
      cases h

end PA
open PA

/-- **C99.** After any history of assignments and deletions of attributes, under any names (except assignments to `_update_edges`) and with
any values, steps that raised included: `v` is None or an array of points, `e` can be read, and is what it should be, if anything, for `v`
and the truth value of `closed`. -/
theorem C99_history (v closed : PyObj α) (ops : List (Op α)) (h0 : (init v closed).2 = .ok ()) (hp : ∀ op ∈ ops, Plain op) :
    let d := run (init v closed).1 ops
    (∃ w x, getAttr d "v" = .ok (.obj (ofPoints w)) ∧ getAttr d "e" = .ok (.obj x)) ∧
    (∀ w c x, getAttr d "v" = .ok (.obj w) → getAttr d "closed" = .ok (.obj c) → EdgesFor w c x → getAttr d "e" = .ok (.obj x)) := by
  intro d
  have h : Inv d := inv_run ops _ (inv_init v closed h0) hp
  obtain ⟨w, hw⟩ := h.verts
  obtain ⟨x, hx⟩ := h.hasE
  have ge : ∀ y, d.get? "e" = some y → getAttr d "e" = .ok (.obj y) := by
    intro y hy
    unfold getAttr
    rw [if_neg (by decide), if_pos rfl, hy]
  refine ⟨⟨w, x, ?_, ge x hx⟩, ?_⟩
  · unfold getAttr
    rw [if_pos (by decide), hw]
  · intro w c y h1 h2 hy
    unfold getAttr at h1 h2
    rw [if_pos (by decide)] at h1 h2
    injection h1 with h1; injection h1 with h1
    injection h2 with h2; injection h2 with h2
    subst h1 h2
    exact ge y (h.settled y hy)

/-- **C99.** One assignment to `v` or `closed` on such an object: it returns exactly if there are edges for what `v` and `closed` now are
(and the value is acceptable as `v`); if it raises, the edges stay. -/
theorem C99_assign (v closed : PyObj α) (ops : List (Op α)) (h0 : (init v closed).2 = .ok ()) (hp : ∀ op ∈ ops, Plain op)
    (name : String) (hn : name ∈ setters) (val : PyObj α) :
    let d := run (init v closed).1 ops
    let r := setAttr d name val
    (r.2 = .ok () → ∃ x, EdgesFor (descriptorGet r.1 "v") (descriptorGet r.1 "closed") x) ∧
    (∀ err, r.2 = .error err → r.1.get? "e" = d.get? "e" ∧
      (r.1 = d ∨ ∀ x, ¬ EdgesFor (descriptorGet r.1 "v") (descriptorGet r.1 "closed") x)) := by
  intro d r
  have h : Inv d := inv_run ops _ (inv_init v closed h0) hp
  have key : ∀ d' : Inst α, VertsOk d' → Unhidden d' → d'.get? "e" = d.get? "e" →
      ((callUpdateEdges d').2 = .ok () → ∃ x, EdgesFor (descriptorGet (callUpdateEdges d').1 "v") (descriptorGet (callUpdateEdges d').1 "closed") x) ∧
      (∀ err, (callUpdateEdges d').2 = .error err → (callUpdateEdges d').1.get? "e" = d.get? "e" ∧
        ((callUpdateEdges d').1 = d ∨ ∀ x, ¬ EdgesFor (descriptorGet (callUpdateEdges d').1 "v") (descriptorGet (callUpdateEdges d').1 "closed") x)) := by
    intro d' hv hu he
    rw [dget_congr (callUpdateEdges_get d' "v" (by decide)), dget_congr (callUpdateEdges_get d' "closed" (by decide)),
      callUpdateEdges_eq d' hu]
    rcases updateEdges_cases d' hv with ⟨h1, y, hy, h2⟩ | ⟨⟨err, h1⟩, h2, h3⟩
    · exact ⟨fun _ => ⟨y, hy⟩, fun err h => (by rw [h1] at h; cases h)⟩
    · refine ⟨fun h => (by rw [h1] at h; cases h), fun _ _ => ⟨by rw [h2]; exact he, Or.inr h3⟩⟩
  have hr : r = descriptorSet d name val := by
    show setAttr d name val = _
    unfold setAttr
    rw [if_pos hn]
  rw [hr]
  unfold descriptorSet
  split
  · unfold setV
    split
    · exact ⟨fun h => (by cases h), fun _ _ => ⟨rfl, Or.inl rfl⟩⟩
    · rename_i w _
      exact key _ ⟨w, by rw [dget_set]; rfl⟩ (set_unhidden _ _ _ h.unhidden (by decide)) (Dict.get?_set_ne _ _ (by decide))
  · unfold setClosed
    refine key _ ?_ (set_unhidden _ _ _ h.unhidden (by decide)) (Dict.get?_set_ne _ _ (by decide))
    obtain ⟨w, hw⟩ := h.verts
    exact ⟨w, by rw [dget_set, if_neg (by decide)]; exact hw⟩

namespace PA

/-- the operation on the polyline of `Model/Polyline.lean`, for the attributes that it has -/
def shown : Op α → Option (PolyOp α)
  | .set name val =>
    if name = "v" then some (.setV (asVArg val))
    else if name = "closed" then match truth val with
      | .ok b => some (.setClosed b)
      | .error _ => none
    else none
  | .del name =>
    if name = "v" then some .delV
    else if name = "closed" then some (.setClosed false)
    else none

/-- not an assignment to `_update_edges`, nor of something without a truth value to `closed` -/
def Decent (op : Op α) : Prop := Plain op ∧ ∀ val, op = .set "closed" val → ∃ b, truth val = .ok b

theorem shows_setV (d : Inst α) (p : Polyline α) (val : PyObj α) (h : Shows d p) :
    Shows (setV d val).1 (p.setV (asVArg val)).1 ∧ (setV d val).2 = (p.setV (asVArg val)).2 := by
  unfold setV Polyline.setV
  cases hp : asPoints (asVArg val) with
  | error err => exact ⟨h, rfl⟩
  | ok w =>
    have he : (d.set "v" (ofPoints w)).get? "e" = some (match p.e with | none => .none | some es => .edges es) := by
      rw [Dict.get?_set_ne _ _ (by decide)]; exact h.e
    obtain ⟨_, h2, h3⟩ := shows_update (d.set "v" (ofPoints w)) { p with v := w } (by rw [dget_set]; rfl)
      (by rw [dget_set, if_neg (by decide)]; exact h.closed) (Or.inl he) (set_unhidden _ _ _ h.unhidden (by decide))
    exact ⟨h2 he, h3⟩

theorem shows_setClosed (d : Inst α) (p : Polyline α) (val : PyObj α) (b : Bool) (hb : truth val = .ok b) (h : Shows d p) :
    Shows (setClosed d val).1 (p.setClosed b).1 ∧ (setClosed d val).2 = (p.setClosed b).2 := by
  unfold setClosed Polyline.setClosed
  have he : (d.set "closed" val).get? "e" = some (match p.e with | none => .none | some es => .edges es) := by
    rw [Dict.get?_set_ne _ _ (by decide)]; exact h.e
  obtain ⟨_, h2, h3⟩ := shows_update (d.set "closed" val) { p with closed := b }
    (by rw [dget_set, if_neg (by decide)]; exact h.v)
    (by rw [dget_set]; exact hb) (Or.inl he) (set_unhidden _ _ _ h.unhidden (by decide))
  exact ⟨h2 he, h3⟩

theorem shows_frame (d d' : Inst α) (p : Polyline α) (h : Shows d p) (hv : d'.get? "v" = d.get? "v")
    (hc : d'.get? "closed" = d.get? "closed") (he : d'.get? "e" = d.get? "e") (hu : Unhidden d') : Shows d' p :=
  ⟨(dget_congr hv).trans h.v, by rw [dget_congr hc]; exact h.closed, he.trans h.e, hu⟩

theorem not_setter {name : String} (h1 : name ∉ setters) : name ≠ "v" ∧ name ≠ "closed" := by
  constructor
  · rintro rfl; exact h1 (by decide)
  · rintro rfl; exact h1 (by decide)

theorem setter_cases {name : String} (h : name ∈ setters) : name = "v" ∨ name = "closed" := by
  simpa [setters] using h

end PA

/-- **C99.** Assignments and deletions refine the state machine of C34: whatever is done to the attributes, `v`, `e` and the truth value of
`closed` are those of the record with the corresponding operations done to it, and the operations raise the same. -/
theorem C99_refines_step (d : Inst α) (p : Polyline α) (op : Op α) (hd : (Dict.keys d).Nodup) (ho : Decent op) (h : Shows d p) :
    match shown op with
    | none => Shows (step d op).1 p
    | some q => Shows (step d op).1 (q.run p).1 ∧ PolyOp.run.errOf (step d op).2 = (q.run p).2 := by
  cases op with
  | set name val =>
    by_cases hs : name ∈ setters
    · have e1 : step d (.set name val) = descriptorSet d name val := by
        simp only [step, setAttr, if_pos hs]
      rw [e1]
      rcases setter_cases hs with rfl | rfl
      · obtain ⟨a, b⟩ := shows_setV d p val h
        refine ⟨a, ?_⟩
        exact congrArg _ b
      · obtain ⟨b, hb⟩ := ho.2 val rfl
        have : shown (.set "closed" val : Op α) = some (.setClosed b) := by
          simp [shown, hb]
        rw [this]
        obtain ⟨a, c⟩ := shows_setClosed d p val b hb h
        exact ⟨a, congrArg _ c⟩
    · obtain ⟨n1, n2⟩ := not_setter hs
      have : shown (.set name val : Op α) = none := by simp [shown, n1, n2]
      rw [this]
      simp only [step, setAttr, if_neg hs]
      split
      · exact h
      · rename_i h2
        obtain ⟨a, b, c⟩ := ne_of_not_mem hs h2
        exact shows_frame d _ p h (Dict.get?_set_ne _ _ a) (Dict.get?_set_ne _ _ b) (Dict.get?_set_ne _ _ c)
          (set_unhidden _ _ _ h.unhidden ho.1)
  | del name =>
    by_cases hs : name ∈ setters
    · have e1 : step d (.del name) = descriptorSet d name .none := by
        simp only [step, delAttr, if_pos hs, descriptorDelete]
      rw [e1]
      rcases setter_cases hs with rfl | rfl
      · obtain ⟨a, b⟩ := shows_setV d p .none h
        exact ⟨a, congrArg _ b⟩
      · obtain ⟨a, b⟩ := shows_setClosed d p .none false rfl h
        exact ⟨a, congrArg _ b⟩
    · obtain ⟨n1, n2⟩ := not_setter hs
      have : shown (.del name : Op α) = none := by simp [shown, n1, n2]
      rw [this]
      simp only [step, delAttr, if_neg hs]
      split
      · exact h
      · rename_i h2
        obtain ⟨a, b, c⟩ := ne_of_not_mem hs h2
        split
        · refine shows_frame d _ p h (get_del_ne _ _ _ a) (get_del_ne _ _ _ b) (get_del_ne _ _ _ c) ?_
          unfold Unhidden
          by_cases hk : name = "_update_edges"
          · subst hk
            exact get_del_same _ _ hd
          · rw [get_del_ne _ _ _ (Ne.symm hk)]; exact h.unhidden
        · exact h

/-- **C99.** The same for a constructor call followed by any history. -/
theorem C99_refines (v closed : PyObj α) (b : Bool) (hb : truth closed = .ok b) (ops : List (Op α)) (ho : ∀ op ∈ ops, Decent op) :
    match Polyline.new (asVArg v) b with
    | .error err => (init v closed).2 = .error err
    | .ok p => (init v closed).2 = .ok () ∧
        Shows (run (init v closed).1 ops) ((ops.filterMap shown).foldl (fun p q => (q.run p).1) p) := by
  have hinit : (init v closed).2 = (Polyline.setV ⟨none, b, none⟩ (asVArg v)).2 ∧
      ((init v closed).2 = .ok () → Shows (init v closed).1 (Polyline.setV ⟨none, b, none⟩ (asVArg v)).1) := by
    unfold init setV Polyline.setV
    cases hp : asPoints (asVArg v) with
    | error err => exact ⟨rfl, fun h => by cases h⟩
    | ok w =>
      have hu : Unhidden (Dict.set (Dict.set [] "closed" closed) "v" (ofPoints w)) := rfl
      by_cases hok : (callUpdateEdges (Dict.set (Dict.set [] "closed" closed) "v" (ofPoints w))).2 = .ok ()
      · obtain ⟨h1, _, h3⟩ := shows_update (Dict.set (Dict.set [] "closed" closed) "v" (ofPoints w)) ⟨w, b, none⟩
          (by rw [dget_set]; rfl) (by rw [dget_set, if_neg (by decide), dget_set]; exact hb) (Or.inr hok) hu
        exact ⟨h3, h1⟩
      · refine ⟨?_, fun h => absurd h hok⟩
        -- the outcome does not depend on the entry `e`
        show (callUpdateEdges (Dict.set (Dict.set [] "closed" closed) "v" (ofPoints w))).2 = (Polyline.updateEdges ⟨w, b, none⟩).2
        rw [callUpdateEdges_eq _ hu]
        have hV : descriptorGet (Dict.set (Dict.set [] "closed" closed) "v" (ofPoints w)) "v" = ofPoints w := by rw [dget_set]; rfl
        have hC : truth (descriptorGet (Dict.set (Dict.set [] "closed" closed) "v" (ofPoints w)) "closed") = .ok b := by
          rw [dget_set, if_neg (by decide), dget_set]; exact hb
        unfold updateEdges Polyline.updateEdges
        rw [hV]
        cases w with
        | none => rfl
        | some ps =>
          simp only [ofPoints] at hC ⊢
          rw [hC]
          simp only [List.length_map]
          cases mkEdges ps.length b <;> rfl
  have hrun : ∀ (ops : List (Op α)) (d : Inst α) (p : Polyline α), (∀ op ∈ ops, Decent op) → Shows d p → Inv d →
      Shows (run d ops) ((ops.filterMap shown).foldl (fun p q => (q.run p).1) p) := by
    intro ops
    induction ops with
    | nil => intro d p _ h _; exact h
    | cons op ops ih =>
      intro d p ho h hi
      have hs := C99_refines_step d p op hi.nodup (ho op (by simp)) h
      have hi' := inv_step d op (ho op (by simp)).1 hi
      have ho' : ∀ o ∈ ops, Decent o := fun o hm => ho o (by simp [hm])
      cases hq : shown op with
      | none =>
        rw [hq] at hs
        rw [List.filterMap_cons_none hq]
        exact ih _ _ ho' hs hi'
      | some q =>
        rw [hq] at hs
        rw [List.filterMap_cons_some hq]
        exact ih _ _ ho' hs.1 hi'
  unfold Polyline.new
  obtain ⟨h1, h2⟩ := hinit
  rcases hx : Polyline.setV ⟨none, b, none⟩ (asVArg v) with ⟨p, r⟩
  rw [hx] at h1 h2
  cases r with
  | error err => exact h1
  | ok u => exact ⟨h1, hrun ops _ _ ho (h2 h1) (inv_init v closed h1)⟩

/-- **C99.** Deleting `v` or `closed` is assigning None. -/
theorem C99_delete (d : Inst α) (name : String) (h : name ∈ setters) : delAttr d name = setAttr d name .none := by
  unfold delAttr setAttr descriptorDelete
  rw [if_pos h, if_pos h]

/-- **C99.** `closed` reads back as the very object assigned, and None before any assignment or after a deletion; an assignment that raised
has still been made. -/
theorem C99_closed (d : Inst α) (val : PyObj α) :
    getAttr (setAttr d "closed" val).1 "closed" = .ok (.obj val) ∧
    getAttr (delAttr d "closed").1 "closed" = .ok (.obj .none) ∧
    getAttr ([] : Inst α) "closed" = .ok (.obj .none) := by
  have key : ∀ x : PyObj α, getAttr (setAttr d "closed" x).1 "closed" = .ok (.obj x) := by
    intro x
    have e : setAttr d "closed" x = callUpdateEdges (d.set "closed" x) := rfl
    rw [e]
    unfold getAttr
    rw [if_pos (by decide), dget_congr (callUpdateEdges_get _ _ (by decide)), dget_set]
    rfl
  refine ⟨key val, ?_, rfl⟩
  rw [C99_delete d "closed" (by decide)]
  exact key .none

/-- **C99.** What may be assigned to `v`, and what it then is.  None: None.  Rows of three finite numbers: those rows.  Three rows of any
other length: their columns.  Anything else (an array of another shape, of edges, with an entry that is not finite; an object that is no
array): ValueError, and the object is as before. -/
theorem C99_vertices (d : Inst α) :
    getAttr (setAttr d "v" .none).1 "v" = .ok (.obj .none) ∧
    (∀ ps : List (V3 α), (∀ p ∈ ps, ∀ x ∈ p.toList, npIsNan x = false ∧ npIsInf x = false) →
      getAttr (setAttr d "v" (.array 3 (ps.map V3.toList))).1 "v" = .ok (.obj (.array 3 (ps.map V3.toList)))) ∧
    (∀ ps : List (V3 α), ps.length ≠ 3 → (∀ p ∈ ps, ∀ x ∈ p.toList, npIsNan x = false ∧ npIsInf x = false) →
      getAttr (setAttr d "v" (.array ps.length [ps.map V3.x, ps.map V3.y, ps.map V3.z])).1 "v" =
        .ok (.obj (.array 3 (ps.map V3.toList)))) ∧
    (∀ n rows, n ≠ 3 → rows.length ≠ 3 → setAttr d "v" (.array n rows) = (d, .error .ValueError)) ∧
    (∀ n rows, (∃ r ∈ rows, ∃ x ∈ r, npIsNan x = true ∨ npIsInf x = true) → setAttr d "v" (.array n rows) = (d, .error .ValueError)) ∧
    (∀ es, es.length ≠ 3 → setAttr d "v" (.edges es) = (d, .error .ValueError)) ∧
    (∀ i t, setAttr d "v" (.thing i t) = (d, .error .ValueError)) := by
  have e : ∀ x, setAttr d "v" x = setV d x := fun _ => rfl
  have key : ∀ (x : PyObj α) (w : Option (List (V3 α))), asPoints (asVArg x) = .ok w →
      getAttr (setAttr d "v" x).1 "v" = .ok (.obj (ofPoints w)) := by
    intro x w h
    rw [e]; unfold setV; rw [h]
    unfold getAttr
    rw [if_pos (by decide), dget_congr (callUpdateEdges_get _ _ (by decide)), dget_set]
    rfl
  have err : ∀ (x : PyObj α), asPoints (asVArg x) = .error .ValueError → setAttr d "v" x = (d, .error .ValueError) := by
    intro x h
    rw [e]; unfold setV; rw [h]
  have wrong : ∀ n rows, n ≠ 3 → rows.length ≠ 3 → asPoints (.mat n rows : VArg α) = .error .ValueError := by
    intro n rows hn hr
    unfold asPoints
    simp only
    split
    · rfl
    · split
      · simp at hr
      · rfl
  refine ⟨key _ Option.none rfl, ?_, ?_, ?_, ?_, ?_, ?_⟩
  · intro ps hp
    exact key _ (some ps) (Proofs.asPoints_rowsOf ps (by simpa using hp))
  · intro ps hl hp
    refine key _ (some ps) ?_
    have hz : List.zipWith (fun (x : α) (p : α × α) => (⟨x, p.1, p.2⟩ : V3 α)) (ps.map V3.x) ((ps.map V3.y).zip (ps.map V3.z)) = ps := by
      clear hl hp
      induction ps with
      | nil => rfl
      | cons p ps ih => simpa using ih
    unfold asVArg asPoints
    simp only
    rw [if_neg, if_neg hl, hz]
    simp only [List.any_eq_true, Bool.or_eq_true, not_exists, not_and]
    intro r hr x hx
    have : ∃ p ∈ ps, x ∈ p.toList := by
      simp only [List.mem_cons, List.not_mem_nil, or_false] at hr
      rcases hr with rfl | rfl | rfl <;> obtain ⟨p, hp, rfl⟩ := List.mem_map.mp hx <;> exact ⟨p, hp, by simp [V3.toList]⟩
    obtain ⟨p, hpm, hx⟩ := this
    simp [hp p hpm x hx]
  · intro n rows hn hr
    exact err _ (wrong n rows hn hr)
  · rintro n rows ⟨r, hr, x, hx, h⟩
    refine err _ ?_
    unfold asVArg asPoints
    simp only
    rw [if_pos (List.any_eq_true.mpr ⟨r, hr, List.any_eq_true.mpr ⟨x, hx, by simpa using h⟩⟩)]
  · intro es hl
    exact err _ (wrong 2 _ (by decide) (by simpa using hl))
  · intro i t
    exact err _ rfl

/-- **C99.** The computed attributes can be neither assigned nor deleted; trying changes nothing. -/
theorem C99_read_only (d : Inst α) (name : String) (h : name ∈ readOnly) (val : PyObj α) :
    setAttr d name val = (d, .error .AttributeError) ∧ delAttr d name = (d, .error .AttributeError) := by
  have h1 : name ∉ setters := by
    intro hs
    rcases setter_cases hs with rfl | rfl <;> revert h <;> decide
  unfold setAttr delAttr
  rw [if_neg h1, if_pos h, if_neg h1, if_pos h]
  exact ⟨rfl, rfl⟩

/-- **C99.** All other names are ordinary: they read back as assigned, can be deleted once, and neither touch `v`, `closed`, `e`, nor are
touched by assignments to those. -/
theorem C99_ordinary (d : Inst α) (hd : (Dict.keys d).Nodup) (name : String) (h1 : name ∉ setters) (h2 : name ∉ readOnly) (val : PyObj α) :
    (setAttr d name val).2 = .ok () ∧
    getAttr (setAttr d name val).1 name = .ok (.obj val) ∧
    (∀ k, k ≠ name → getAttr (setAttr d name val).1 k = getAttr d k ∧ getAttr (delAttr d name).1 k = getAttr d k) ∧
    (∀ k ∈ setters, ∀ x, getAttr (setAttr d k x).1 name = getAttr d name) ∧
    ((delAttr d name).2 = .ok () ↔ d.contains name = true) ∧
    (∀ x, getAttr (delAttr d name).1 name ≠ .ok (.obj x)) := by
  obtain ⟨nv, nc, ne⟩ := ne_of_not_mem h1 h2
  have e1 : setAttr d name val = (d.set name val, .ok ()) := by unfold setAttr; rw [if_neg h1, if_neg h2]
  have congr : ∀ (d d' : Inst α) k, d'.get? k = d.get? k → getAttr d' k = getAttr d k := by
    intro d d' k h
    unfold getAttr
    rw [dget_congr h]
    by_cases hk : k = "e"
    · subst hk; rw [h]
    · simp only [hk, if_false, h]
  have e2 : delAttr d name = if d.contains name then (d.del name, .ok ()) else (d, raise .AttributeError) := by
    unfold delAttr; rw [if_neg h1, if_neg h2]
  have hread : ∀ d : Inst α, getAttr d name = match d.get? name with
      | some x => .ok (.obj x)
      | none => if name ∈ methods then .ok (.method name) else raise .AttributeError := by
    intro d
    unfold getAttr
    rw [if_neg h1, if_neg (Ne.symm ne), if_neg h2]
    cases d.get? name <;> rfl
  refine ⟨by rw [e1], ?_, ?_, ?_, ?_, ?_⟩
  · rw [e1, hread, Dict.get?_set_same]
  · intro k hk
    refine ⟨congr _ _ _ (by rw [e1]; exact Dict.get?_set_ne _ _ hk), congr _ _ _ ?_⟩
    rw [e2]
    split
    · exact get_del_ne _ _ _ hk
    · rfl
  · intro k hk x
    apply congr
    unfold setAttr
    rw [if_pos hk]
    unfold descriptorSet
    split
    · exact setV_get _ _ _ (Ne.symm nv) (Ne.symm ne)
    · exact setClosed_get _ _ _ (Ne.symm nc) (Ne.symm ne)
  · rw [e2]
    split
    · rename_i h; exact ⟨fun _ => h, fun _ => rfl⟩
    · rename_i h; exact ⟨fun h' => (by cases h'), fun h' => absurd h' h⟩
  · intro x hx
    have hn : (delAttr d name).1.get? name = none := by
      rw [e2]
      by_cases h : d.contains name = true
      · rw [if_pos h]; exact get_del_same _ _ hd
      · rw [if_neg h]; simpa [Dict.contains] using h
    rw [hread, hn] at hx
    dsimp only at hx
    split at hx <;> cases hx

/-- the public methods of a polyline -/
def publicMethods : List String :=
  ["copy", "as_lines", "to_dict", "flip", "reindexed", "partition_by_length", "apex", "intersect_plane", "cut_by_plane"]

/-- **C99.** The methods, by name: they can be read on the class and on every instance that has no attribute of that name; an assignment to
the instance hides the method and a deletion brings it back.  `v` and `closed` can be assigned to, the five computed attributes cannot.  A name
that neither the class nor the instance has raises AttributeError, on both (the names of `object`, which start with two underscores, are not
modelled). -/
theorem C99_methods (d : Inst α) (hd : (Dict.keys d).Nodup) :
    (∀ name ∈ publicMethods, getClassAttr (α := α) name = .ok (.method name) ∧ (d.get? name = none → getAttr d name = .ok (.method name)) ∧
      ∀ val, getAttr (setAttr d name val).1 name = .ok (.obj val) ∧ getAttr (delAttr (setAttr d name val).1 name).1 name = .ok (.method name)) ∧
    (∀ name ∈ ["e", "segments", "segment_lengths", "total_length", "segment_vectors"], ∀ val,
      setAttr d name val = (d, .error .AttributeError) ∧ delAttr d name = (d, .error .AttributeError) ∧
      getClassAttr (α := α) name = .ok (.computed name)) ∧
    (∀ name ∈ ["v", "closed"], ∀ val, setAttr d name val = descriptorSet d name val) ∧
    (∀ name : String, name ∉ publicMethods → name ∉ ["v", "closed", "e", "segments", "segment_lengths", "total_length", "segment_vectors"] →
      name.toList.head? ≠ some '_' → getClassAttr (α := α) name = .error .AttributeError ∧ (d.get? name = none → getAttr d name = .error .AttributeError)) := by
  have key : ∀ name, name ∉ setters → name ∉ readOnly → ∀ d : Inst α, getAttr d name = match d.get? name with
      | some x => .ok (.obj x)
      | none => if name ∈ methods then .ok (.method name) else raise .AttributeError := by
    intro name h1 h2 d
    obtain ⟨nv, nc, ne⟩ := ne_of_not_mem h1 h2
    unfold getAttr
    rw [if_neg h1, if_neg (Ne.symm ne), if_neg h2]
    cases d.get? name <;> rfl
  refine ⟨fun name hn => ?_, fun name hn val => ?_, fun name hn val => ?_, fun name h1 h2 h3 => ?_⟩
  · have a1 : ∀ name ∈ publicMethods, name ∉ setters ∧ name ∉ readOnly ∧ name ∈ methods := by decide
    obtain ⟨b1, b2, b3⟩ := a1 name hn
    refine ⟨by unfold getClassAttr; rw [if_neg b1, if_neg b2, if_pos b3], fun h => by rw [key name b1 b2, h]; simp only [if_pos b3], fun val => ?_⟩
    have e1 : setAttr d name val = (d.set name val, .ok ()) := by unfold setAttr; rw [if_neg b1, if_neg b2]
    refine ⟨(C99_ordinary d hd name b1 b2 val).2.1, ?_⟩
    have hk : (Dict.keys (d.set name val)).Nodup := keys_set _ _ _ hd
    have e2 : delAttr (d.set name val) name = ((d.set name val).del name, .ok ()) := by
      unfold delAttr; rw [if_neg b1, if_neg b2, if_pos (by simp [Dict.contains])]
    rw [e1, e2, key name b1 b2, get_del_same _ _ hk]
    simp only [if_pos b3]
  · have a1 : ∀ name ∈ ["e", "segments", "segment_lengths", "total_length", "segment_vectors"], name ∉ setters ∧ name ∈ readOnly := by decide
    obtain ⟨b1, b2⟩ := a1 name hn
    refine ⟨(C99_read_only d name b2 val).1, (C99_read_only d name b2 val).2, ?_⟩
    unfold getClassAttr; rw [if_neg b1, if_pos b2]
  · have a1 : ∀ name ∈ ["v", "closed"], name ∈ setters := by decide
    unfold setAttr; rw [if_pos (a1 name hn)]
  · have a1 : ∀ name ∈ setters, name ∈ ["v", "closed", "e", "segments", "segment_lengths", "total_length", "segment_vectors"] := by decide
    have a2 : ∀ name ∈ readOnly, name ∈ ["v", "closed", "e", "segments", "segment_lengths", "total_length", "segment_vectors"] := by decide
    have a3 : ∀ name ∈ methods, name ∈ publicMethods ∨ name.toList.head? = some '_' := by decide
    have b1 : name ∉ setters := fun h => h2 (a1 name h)
    have b2 : name ∉ readOnly := fun h => h2 (a2 name h)
    have b3 : name ∉ methods := fun h => (a3 name h).elim h1 h3
    refine ⟨by unfold getClassAttr; rw [if_neg b1, if_neg b2, if_neg b3], fun h => by rw [key name b1 b2, h]; simp only [if_neg b3]⟩

/-- **C99.** On the class, `v` and `closed` cannot be read (so that `hasattr(Polyline, 'v')` is False), though instances have them; the
computed attributes are there. -/
theorem C99_class (name : String) (h : name ∈ setters) (d : Inst α) :
    getClassAttr (α := α) name = .error .AttributeError ∧ (∃ x, getAttr d name = .ok (.obj x)) ∧
    ∀ k ∈ readOnly, getClassAttr (α := α) k = .ok (.computed k) := by
  refine ⟨?_, ?_, ?_⟩
  · unfold getClassAttr; rw [if_pos h]
  · unfold getAttr; rw [if_pos h]; exact ⟨_, rfl⟩
  · intro k hk
    have h1 : k ∉ setters := by
      intro hs
      rcases setter_cases hs with rfl | rfl <;> revert hk <;> decide
    unfold getClassAttr
    rw [if_neg h1, if_pos hk]

/-- **C99.** The truth value of a polyline is whether it has vertices; without a vertex array, asking for it raises TypeError. -/
theorem C99_bool (d : Inst α) :
    (getAttr d "v" = .ok (.obj .none) → boolOf d = .error .TypeError) ∧
    (∀ ps, getAttr d "v" = .ok (.obj (ofPoints (some ps))) → boolOf d = .ok (ps.length != 0)) := by
  have e : getAttr d "v" = .ok (.obj (descriptorGet d "v")) := by unfold getAttr; rw [if_pos (by decide)]
  refine ⟨fun h => ?_, fun ps h => ?_⟩
  · rw [e] at h
    injection h with h; injection h with h
    unfold boolOf; rw [h]
  · rw [e] at h
    injection h with h; injection h with h
    unfold boolOf; rw [h]; simp [ofPoints]

/-- **C99.** The truth value of an array: that of its only entry; false if it has none; ValueError if it has more. -/
theorem C99_arrays (n : ℕ) (rows : List (List ℝ)) (h : ∀ r ∈ rows, r.length = n) :
    (rows.flatten = [] → truth (.array n rows) = .ok false) ∧
    (∀ x, rows.flatten = [x] → ∃ b, truth (.array n rows) = .ok b ∧ (b = true ↔ x ≠ 0)) ∧
    (2 ≤ rows.flatten.length → truth (.array n rows) = .error .ValueError) ∧
    (∀ e es, truth (.edges (e :: es) : PyObj ℝ) = .error .ValueError) ∧ truth (.edges [] : PyObj ℝ) = .ok false := by
  have hlen : rows.flatten.length = n * rows.length := by
    induction rows with
    | nil => simp
    | cons r rows ih =>
      rw [List.flatten_cons, List.length_append, ih (fun r hr => h r (by simp [hr])), h r (by simp), List.length_cons]
      ring
  refine ⟨?_, ?_, ?_, fun _ _ => rfl, rfl⟩
  · intro h0
    rw [h0] at hlen
    simp only [truth]
    rw [if_pos (by simpa using hlen.symm)]
  · intro x hx
    rw [hx, List.length_singleton] at hlen
    have h1 : n = 1 ∧ rows.length = 1 := by
      have := Nat.eq_one_of_mul_eq_one_right hlen.symm
      have := Nat.eq_one_of_mul_eq_one_left hlen.symm
      exact ⟨by assumption, by assumption⟩
    obtain ⟨rfl, h1⟩ := h1
    obtain ⟨r, rfl⟩ := List.length_eq_one_iff.mp h1
    have hr : r = [x] := by simpa using hx
    subst hr
    refine ⟨_, by simp only [truth]; rw [if_neg (by simp)], ?_⟩
    simp [Num.eq, Num.lit]
  · intro h2
    rw [hlen] at h2
    simp only [truth]
    rw [if_neg (by omega)]
    split
    · rename_i y
      have := h [y] (by simp)
      simp at this
      subst this
      simp at h2
    · rfl

/-- **C99.** Something without a truth value as `closed`, such as an array of two flags: the assignment raises if there are vertices, and is
made; while it is there, new vertices are taken with an exception and without new edges; None is taken as `v` without complaint. -/
theorem C99_no_truth (d : Inst α) (hu : Unhidden d) (val : PyObj α) (err : PyErr) (ht : truth val = .error err) :
    (∀ ps, descriptorGet d "v" = ofPoints (some ps) → setAttr d "closed" val = (d.set "closed" val, .error err)) ∧
    (∀ x ps, descriptorGet d "closed" = val → asPoints (asVArg x) = .ok (some ps) →
      setAttr d "v" x = (d.set "v" (ofPoints (some ps)), .error err)) ∧
    (descriptorGet d "closed" = val → setAttr d "v" .none = ((d.set "v" .none).set "e" .none, .ok ())) := by
  refine ⟨?_, ?_, ?_⟩
  · intro ps hv
    have e : setAttr d "closed" val = callUpdateEdges (d.set "closed" val) := rfl
    rw [e, callUpdateEdges_eq _ (set_unhidden _ _ _ hu (by decide))]
    unfold updateEdges
    rw [dget_set, if_neg (by decide), hv]
    simp only [ofPoints]
    rw [dget_set, if_pos rfl, ht]
  · intro x ps hc hx
    have e : setAttr d "v" x = setV d x := rfl
    rw [e]
    unfold setV
    rw [hx]
    dsimp only
    rw [callUpdateEdges_eq _ (set_unhidden _ _ _ hu (by decide))]
    unfold updateEdges
    rw [dget_set, if_pos rfl]
    simp only [ofPoints]
    rw [dget_set, if_neg (by decide), hc, ht]
  · intro hc
    have e : setAttr d "v" .none = callUpdateEdges (d.set "v" .none) := rfl
    rw [e, callUpdateEdges_eq _ (set_unhidden _ _ _ hu (by decide))]
    unfold updateEdges
    rw [dget_set, if_pos rfl]

/-- **C99.** The method that derives the edges is an attribute too: once an instance has something else under its name, vertices are taken
with a TypeError and without new edges. -/
theorem C99_hidden (d : Inst α) (val x : PyObj α) (w : Option (List (V3 α))) (hx : asPoints (asVArg x) = .ok w) :
    (setAttr d "_update_edges" val).2 = .ok () ∧
    (setAttr (setAttr d "_update_edges" val).1 "v" x).2 = .error .TypeError ∧
    getAttr (setAttr (setAttr d "_update_edges" val).1 "v" x).1 "v" = .ok (.obj (ofPoints w)) ∧
    getAttr (setAttr (setAttr d "_update_edges" val).1 "v" x).1 "e" = getAttr d "e" := by
  have e1 : setAttr d "_update_edges" val = (d.set "_update_edges" val, .ok ()) := rfl
  have e2 : ∀ d : Inst α, setAttr d "v" x = setV d x := fun _ => rfl
  have e3 : setV (d.set "_update_edges" val) x = ((d.set "_update_edges" val).set "v" (ofPoints w), .error .TypeError) := by
    unfold setV
    rw [hx]
    dsimp only
    unfold callUpdateEdges Dict.contains
    rw [Dict.get?_set_ne _ _ (by decide), Dict.get?_set_same]
    rfl
  rw [e1, e2, e3]
  refine ⟨rfl, rfl, ?_, ?_⟩
  · unfold getAttr
    rw [if_pos (by decide), dget_set, if_pos rfl]
  · unfold getAttr
    rw [Dict.get?_set_ne _ _ (by decide), Dict.get?_set_ne _ _ (by decide)]
    rfl

namespace PA
/-- three points, as an array -/
noncomputable def tri : PyObj ℝ := ofPoints (some [⟨0, 0, 0⟩, ⟨1, 0, 0⟩, ⟨0, 1, 0⟩])
/-- two points, as an array -/
noncomputable def duo : PyObj ℝ := ofPoints (some [⟨5, 0, 0⟩, ⟨6, 0, 0⟩])
/-- a word, which is true -/
def word : PyObj ℝ := .thing 7 (.ok true)
/-- two flags in one array -/
noncomputable def flags : PyObj ℝ := .array 2 [[1, 0]]
/-- a closed triangle; a word for the flag -/
noncomputable def triangle : Inst ℝ :=
  [("closed", word), ("v", tri), ("e", .edges [(0, 1), (1, 2), (2, 0)])]

theorem asPoints_of (ps : List (V3 ℝ)) : asPoints (asVArg (ofPoints (some ps))) = .ok (some ps) := Proofs.asPoints_real ps
end PA

/-- **C99.** A case with everything: `p = Polyline(tri, closed='yes')` is closed; `p.closed = array([True, False])` raises ValueError, then
`p.v = duo` raises ValueError and leaves two vertices with the edges of the triangle; `del p.closed` makes an open polyline of it. -/
theorem C99_example :
    init tri word = (triangle, .ok ()) ∧
    (let d1 := setAttr triangle "closed" flags
     let d2 := setAttr d1.1 "v" duo
     let d3 := delAttr d2.1 "closed"
     d1.2 = .error .ValueError ∧ d2.2 = .error .ValueError ∧
     getAttr d2.1 "v" = .ok (.obj duo) ∧ getAttr d2.1 "e" = .ok (.obj (.edges [(0, 1), (1, 2), (2, 0)])) ∧
     d3 = ([("closed", .none), ("v", duo), ("e", .edges [(0, 1)])], .ok ())) ∧
    (init .none flags).2 = .ok () ∧ (init tri flags).2 = .error .ValueError := by
  have a1 : setV (Dict.set [] "closed" word) tri = callUpdateEdges (Dict.set (Dict.set [] "closed" word) "v" tri) := by
    unfold setV; rw [tri, asPoints_of]
  have a2 : setV (Dict.set [] "closed" flags) tri = callUpdateEdges (Dict.set (Dict.set [] "closed" flags) "v" tri) := by
    unfold setV; rw [tri, asPoints_of]
  have a3 : ∀ d : Inst ℝ, setAttr d "v" duo = callUpdateEdges (d.set "v" duo) := by
    intro d
    show setV d duo = _
    unfold setV; rw [duo, asPoints_of]
  refine ⟨?_, ?_, rfl, ?_⟩
  · unfold init; rw [a1]; rfl
  · simp only [a3]
    exact ⟨rfl, rfl, rfl, rfl, rfl⟩
  · unfold init; rw [a2]; rfl

/-- The hypotheses of the theorems above are met by the triangle. -/
theorem C99_witness :
    (∀ op ∈ [Op.set "v" duo, Op.set "colour" word, Op.del "v", Op.del "colour", Op.set "closed" .none], Decent op) ∧
    Shows triangle ⟨some [⟨0, 0, 0⟩, ⟨1, 0, 0⟩, ⟨0, 1, 0⟩], true, some [(0, 1), (1, 2), (2, 0)]⟩ ∧
    Unhidden triangle ∧ (Dict.keys triangle).Nodup ∧ EdgesFor tri word (.edges [(0, 1), (1, 2), (2, 0)]) := by
  refine ⟨?_, ⟨rfl, rfl, rfl, rfl⟩, rfl, by decide, ?_⟩
  · intro op hop
    simp only [List.mem_cons, List.not_mem_nil, or_false] at hop
    rcases hop with rfl | rfl | rfl | rfl | rfl
    · exact ⟨by simp [Plain], fun v h => by injection h with h; simp at h⟩
    · exact ⟨by simp [Plain], fun v h => by injection h with h; simp at h⟩
    · exact ⟨trivial, fun v h => by cases h⟩
    · exact ⟨trivial, fun v h => by cases h⟩
    · exact ⟨by simp [Plain], fun v h => by injection h with _ h; subst h; exact ⟨false, rfl⟩⟩
  · exact .chain 3 _ _ true rfl (fun _ h => by cases h)

end Blmath.Props
