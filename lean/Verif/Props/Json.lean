import Verif.Proofs.Value
import Verif.Model.Json

/-!
Property C11: JSON round trip (`blmath/util/json.py`, `Value.for_json`, `Value.from_json`).
-/

namespace Blmath.Props
open Blmath Blmath.Json Blmath.Spec

variable (env : Env ℝ)

/-- An object with these keys is reinterpreted by the decoder: as a Value, as an array, or, if all the keys of a
sparse matrix are present, as a sparse matrix. -/
def Reserved (keys : List String) : Prop :=
  "__value__" ∈ keys ∨ "__ndarray__" ∈ keys ∨
    ["__scipy.sparse.sparsematrix__", "dtype", "shape", "data", "format", "row", "col"] ⊆ keys

mutual
/-- Data that can be stored: any nesting of lists, dicts with no reserved keys, scalars and
Values with a documented unit (or none). -/
def Storable : Obj ℝ → Prop
  | .null => True
  | .bool _ => True
  | .num _ => True
  | .str _ => True
  | .list xs => StorableList xs
  | .dict kvs => ¬ Reserved (kvs.map (·.1)) ∧ StorableDict kvs
  | .value v => GoodUnits v.units
  | .ndarray _ _ => False
  | .sparse _ => False
/-- all elements storable -/
def StorableList : List (Obj ℝ) → Prop
  | [] => True
  | x :: xs => Storable x ∧ StorableList xs
/-- all entries storable -/
def StorableDict : List (String × Obj ℝ) → Prop
  | [] => True
  | (_, x) :: xs => Storable x ∧ StorableDict xs
end

theorem contains_iff {ν : Type} (kvs : List (String × ν)) (k : String) :
    Dict.contains kvs k = true ↔ k ∈ kvs.map (·.1) := by
  induction kvs with
  | nil => simp [Dict.contains, Dict.get?]
  | cons a kvs ih =>
    obtain ⟨k', v⟩ := a
    unfold Dict.contains at ih ⊢
    rw [Dict.get?_cons]
    split
    · rename_i h; simp [h]
    · rename_i h; rw [ih]; simp [Ne.symm h]

theorem get?_none_iff {ν : Type} (kvs : List (String × ν)) (k : String) :
    Dict.get? kvs k = none ↔ k ∉ kvs.map (·.1) := by
  rw [← contains_iff, Dict.contains]
  cases Dict.get? kvs k <;> simp

/-- the decoder returns an object as it is exactly when its keys are not reserved -/
theorem decodeHook_dict (kvs kvs' : List (String × Obj ℝ)) :
    decodeHook env kvs = .ok (.dict kvs') ↔ kvs' = kvs ∧ ¬ Reserved (kvs.map (·.1)) := by
  unfold decodeHook Reserved
  cases h1 : Dict.get? kvs "__value__" with
  | some x =>
    have : "__value__" ∈ kvs.map (·.1) := by
      by_contra h; rw [(get?_none_iff _ _).mpr h] at h1; cases h1
    simp only [this, true_or, not_true, and_false, iff_false]
    intro h
    obtain ⟨v, -, h⟩ := bind_eq_ok.mp h
    simp at h
  | none =>
    have h1' := (get?_none_iff _ _).mp h1
    cases h2 : Dict.get? kvs "__ndarray__" with
    | some x =>
      have : "__ndarray__" ∈ kvs.map (·.1) := by
        by_contra h; rw [(get?_none_iff _ _).mpr h] at h2; cases h2
      simp only [this, true_or, or_true, not_true, and_false, iff_false]
      intro h
      obtain ⟨_, -, h⟩ := bind_eq_ok.mp h
      simp at h
    | none =>
      have h2' := (get?_none_iff _ _).mp h2
      simp only [h1', h2', false_or]
      have e : (["__scipy.sparse.sparsematrix__", "dtype", "shape", "data", "format", "row", "col"] ⊆ kvs.map (·.1)) ↔
          (Dict.contains kvs "__scipy.sparse.sparsematrix__" = true ∧
            ["dtype", "shape", "data", "format", "row", "col"].all (Dict.contains kvs ·) = true) := by
        simp only [List.cons_subset, List.all_cons, List.all_nil, Bool.and_eq_true, contains_iff, List.nil_subset]
      rw [e]
      by_cases h3 : Dict.contains kvs "__scipy.sparse.sparsematrix__" = true
      · by_cases h4 : ["dtype", "shape", "data", "format", "row", "col"].all (Dict.contains kvs ·) = true
        · simp only [h3, h4, if_true, true_and, not_true, and_false, iff_false]
          intro h
          obtain ⟨_, -, h⟩ := bind_eq_ok.mp h
          simp at h
        · simp only [h3, h4, if_true]
          rw [if_neg Bool.false_ne_true]
          simp only [pure_eq_ok, Except.ok.injEq, Obj.dict.injEq, Bool.false_eq_true, and_false, not_false_eq_true, and_true]
          exact eq_comm
      · rw [if_neg h3]
        simp only [h3, pure_eq_ok, Except.ok.injEq, Obj.dict.injEq, Bool.false_eq_true, false_and, not_false_eq_true, and_true]
        exact eq_comm

theorem decodeHook_plain (kvs : List (String × Obj ℝ)) (h : ¬ Reserved (kvs.map (·.1))) :
    decodeHook env kvs = .ok (.dict kvs) := (decodeHook_dict env _ _).mpr ⟨rfl, h⟩

theorem decode_forJson (v : Value ℝ) (hg : GoodUnits v.units) :
    decode env (forJson v) = .ok (.value v) := by
  obtain ⟨x, u⟩ := v
  have inner : decodeHook env [("value", Obj.num x), ("units", (ofUnits u : Obj ℝ))]
      = .ok (.dict [("value", .num x), ("units", ofUnits u)]) :=
    decodeHook_plain env _ (by simp [Reserved])
  have du : decode env (ofUnits u : Obj ℝ) = .ok (ofUnits u) := by
    cases u <;> simp [ofUnits, decode]
  have tu : Json.toUnits env (ofUnits u : Obj ℝ) = .ok u := by
    cases u <;> simp [ofUnits, Json.toUnits]
  have fj : ofKeywords env (.dict [("value", .num x), ("units", (ofUnits u : Obj ℝ))]) = .ok ⟨x, u⟩ := by
    simp only at hg
    simp [ofKeywords, Dict.get?_cons, toFloat, tu, Value.make_good hg]
  simp [forJson, decode, decodeDict, du, inner]
  simp [decodeHook, fromJson, Dict.get?_cons, fj]

mutual
theorem roundtrip : ∀ t : Obj ℝ, Storable t → ∃ j, encode t = .ok j ∧ decode env j = .ok t
  | .null, _ => ⟨.null, by simp [encode], by simp [decode]⟩
  | .bool b, _ => ⟨.bool b, by simp [encode], by simp [decode]⟩
  | .num x, _ => ⟨.num x, by simp [encode], by simp [decode]⟩
  | .str s, _ => ⟨.str s, by simp [encode], by simp [decode]⟩
  | .list xs, h => by
    simp only [Storable] at h
    obtain ⟨js, h1, h2⟩ := roundtripList xs h
    exact ⟨.list js, by simp [encode, h1], by simp [decode, h2]⟩
  | .dict kvs, h => by
    simp only [Storable] at h
    obtain ⟨js, h1, h2⟩ := roundtripDict kvs h.2
    exact ⟨.dict js, by simp [encode, h1], by simp [decode, h2, decodeHook_plain env kvs h.1]⟩
  | .value v, h => by
    simp only [Storable] at h
    exact ⟨forJson v, by simp [encode], decode_forJson env v h⟩
  | .ndarray _ _, h => by simp [Storable] at h
  | .sparse _, h => by simp [Storable] at h
theorem roundtripList : ∀ ts : List (Obj ℝ), StorableList ts →
    ∃ js, encodeList ts = .ok js ∧ decodeList env js = .ok ts
  | [], _ => ⟨[], by simp [encodeList], by simp [decodeList]⟩
  | t :: ts, h => by
    simp only [StorableList] at h
    obtain ⟨j, h1, h2⟩ := roundtrip t h.1
    obtain ⟨js, h3, h4⟩ := roundtripList ts h.2
    exact ⟨j :: js, by simp [encodeList, h1, h3], by simp [decodeList, h2, h4]⟩
theorem roundtripDict : ∀ ts : List (String × Obj ℝ), StorableDict ts →
    ∃ js, encodeDict ts = .ok js ∧ decodeDict env js = .ok ts
  | [], _ => ⟨[], by simp [encodeDict], by simp [decodeDict]⟩
  | (k, t) :: ts, h => by
    simp only [StorableDict] at h
    obtain ⟨j, h1, h2⟩ := roundtrip t h.1
    obtain ⟨js, h3, h4⟩ := roundtripDict ts h.2
    exact ⟨(k, j) :: js, by simp [encodeDict, h1, h3], by simp [decodeDict, h2, h4]⟩
end

/-- C11.  `loads(dumps(x)) == x` for every storable tree, of any depth. -/
theorem C11_json_roundtrip (t : Obj ℝ) (h : Storable t) :
    ∃ j, encode t = .ok j ∧ decode env j = .ok t := roundtrip env t h

/-- C11.  A Value survives exactly: same number, same units — and an undocumented unit (only the
setter can produce one) is refused when loading. -/
theorem C11_value_roundtrip (v : Value ℝ) :
    encode (.value v) = .ok (forJson v) ∧
    (GoodUnits v.units → decode env (forJson v) = .ok (.value v)) ∧
    (¬ GoodUnits v.units → decode env (forJson v) = .error .ValueError) := by
  refine ⟨by simp [encode], decode_forJson env v, fun hg => ?_⟩
  obtain ⟨x, u⟩ := v
  have inner : decodeHook env [("value", Obj.num x), ("units", (ofUnits u : Obj ℝ))]
      = .ok (.dict [("value", .num x), ("units", ofUnits u)]) :=
    decodeHook_plain env _ (by simp [Reserved])
  have du : decode env (ofUnits u : Obj ℝ) = .ok (ofUnits u) := by
    cases u <;> simp [ofUnits, decode]
  have tu : Json.toUnits env (ofUnits u : Obj ℝ) = .ok u := by
    cases u <;> simp [ofUnits, Json.toUnits]
  simp only at hg
  have fj : ofKeywords env (.dict [("value", .num x), ("units", (ofUnits u : Obj ℝ))])
      = .error .ValueError := by
    simp [ofKeywords, Dict.get?_cons, toFloat, tu, Value.make_bad hg]
  simp [forJson, decode, decodeDict, du, inner]
  simp [decodeHook, fromJson, Dict.get?_cons, fj]

/-- C11.  The reserved-key hypothesis is needed: a plain dict that happens to have the key
`__value__` comes back as a Value, or does not come back at all. -/
theorem C11_reserved_key (ha : env.makeArray (.list []) none = .ok ()) :
    (∃ j, encode (α := ℝ) (.dict [("__value__", .dict [("value", .num 3)])]) = .ok j ∧
      decode env j = .ok (.value ⟨3, none⟩)) ∧
    (∃ j, encode (α := ℝ) (.dict [("__value__", .num 3)]) = .ok j ∧
      decode env j = .error .TypeError) ∧
    (∃ j, encode (α := ℝ) (.dict [("__ndarray__", .list [])]) = .ok j ∧
      decode env j = .ok (.ndarray (.list []) none)) := by
  refine ⟨⟨_, by simp [encode, encodeDict]; rfl, ?_⟩, ⟨_, by simp [encode, encodeDict]; rfl, ?_⟩,
    ⟨_, by simp [encode, encodeDict, encodeList]; rfl, ?_⟩⟩
  · simp [decode, decodeDict, decodeHook, Dict.get?_cons, Dict.contains, fromJson, ofKeywords, toFloat,
      Value.make]
  · simp [decode, decodeDict, decodeHook, Dict.get?_cons, fromJson, ofKeywords]
  · simp [decode, decodeDict, decodeList, decodeHook, Dict.get?_cons, ha]

theorem ofKeywords_good (x : Obj ℝ) (v : Value ℝ) (h : ofKeywords env x = .ok v) :
    GoodUnits v.units := by
  unfold ofKeywords at h
  split at h
  · split at h
    · split at h
      · cases h
      · obtain ⟨v', -, h⟩ := bind_eq_ok.mp h
        split at h
        · cases h
        · simp only at h
          split at h
          · obtain ⟨u, -, h⟩ := bind_eq_ok.mp h
            obtain ⟨hg, -, hu⟩ := Value.make_ok h
            rwa [hu]
          · obtain ⟨u, -, h⟩ := bind_eq_ok.mp h
            obtain ⟨hg, -, hu⟩ := Value.make_ok h
            rwa [hu]
    · cases h
  · cases h

mutual
theorem storable_of : ∀ t j : Obj ℝ, encode t = .ok j → decode env j = .ok t → Storable t
  | .null, _, _, _ => trivial
  | .bool _, _, _, _ => trivial
  | .num _, _, _, _ => trivial
  | .str _, _, _, _ => trivial
  | .list xs, j, h, d => by
    rw [encode] at h
    obtain ⟨js, h1, h2⟩ := bind_eq_ok.mp h
    simp only [pure_eq_ok, Except.ok.injEq] at h2
    subst h2
    rw [decode] at d
    obtain ⟨ys, h3, h4⟩ := bind_eq_ok.mp d
    simp only [pure_eq_ok, Except.ok.injEq, Obj.list.injEq] at h4
    rw [h4] at h3
    exact storableList_of xs js h1 h3
  | .dict kvs, j, h, d => by
    rw [encode] at h
    obtain ⟨js, h1, h2⟩ := bind_eq_ok.mp h
    simp only [pure_eq_ok, Except.ok.injEq] at h2
    subst h2
    rw [decode] at d
    obtain ⟨ys, h3, h4⟩ := bind_eq_ok.mp d
    obtain ⟨h6, h5⟩ := (decodeHook_dict env _ _).mp h4
    rw [← h6] at h3 h5
    exact ⟨h5, storableDict_of kvs js h1 h3⟩
  | .value v, j, h, d => by
    by_contra hg
    obtain ⟨h1, -, h2⟩ := C11_value_roundtrip env v
    rw [h1] at h
    injection h with h
    subst h
    rw [h2 hg] at d
    cases d
  | .ndarray _ _, _, h, _ => by simp [encode] at h
  | .sparse _, _, h, _ => by simp [encode] at h
theorem storableList_of : ∀ ts js : List (Obj ℝ), encodeList ts = .ok js → decodeList env js = .ok ts → StorableList ts
  | [], _, _, _ => trivial
  | t :: ts, js, h, d => by
    rw [encodeList] at h
    obtain ⟨j, h1, h⟩ := bind_eq_ok.mp h
    obtain ⟨js', h2, h⟩ := bind_eq_ok.mp h
    simp only [pure_eq_ok, Except.ok.injEq] at h
    subst h
    rw [decodeList] at d
    obtain ⟨y, h3, d⟩ := bind_eq_ok.mp d
    obtain ⟨ys, h4, d⟩ := bind_eq_ok.mp d
    simp only [pure_eq_ok, Except.ok.injEq, List.cons.injEq] at d
    rw [d.1] at h3
    rw [d.2] at h4
    exact ⟨storable_of t j h1 h3, storableList_of ts js' h2 h4⟩
theorem storableDict_of : ∀ ts js : List (String × Obj ℝ), encodeDict ts = .ok js → decodeDict env js = .ok ts →
    StorableDict ts
  | [], _, _, _ => trivial
  | (k, t) :: ts, js, h, d => by
    rw [encodeDict] at h
    obtain ⟨j, h1, h⟩ := bind_eq_ok.mp h
    obtain ⟨js', h2, h⟩ := bind_eq_ok.mp h
    simp only [pure_eq_ok, Except.ok.injEq] at h
    subst h
    rw [decodeDict] at d
    obtain ⟨y, h3, d⟩ := bind_eq_ok.mp d
    obtain ⟨ys, h4, d⟩ := bind_eq_ok.mp d
    simp only [pure_eq_ok, Except.ok.injEq, List.cons.injEq, Prod.mk.injEq, true_and] at d
    rw [d.1] at h3
    rw [d.2] at h4
    exact ⟨storable_of t j h1 h3, storableDict_of ts js' h2 h4⟩
end

/-- C11.  No other tree comes back: the storable ones are exactly those with `loads(dumps(x)) == x`. -/
theorem C11_exactly (t : Obj ℝ) : Storable t ↔ ∃ j, encode t = .ok j ∧ decode env j = .ok t :=
  ⟨roundtrip env t, fun ⟨j, h1, h2⟩ => storable_of env t j h1 h2⟩

mutual
/-- every Value anywhere in the tree has a documented unit or none -/
def ValuesGood : Obj ℝ → Prop
  | .null => True
  | .bool _ => True
  | .num _ => True
  | .str _ => True
  | .list xs => ValuesGoodList xs
  | .dict kvs => ValuesGoodDict kvs
  | .value v => GoodUnits v.units
  | .ndarray x none => ValuesGood x
  | .ndarray x (some d) => ValuesGood x ∧ ValuesGood d
  | .sparse kvs => ValuesGoodDict kvs
/-- in all elements -/
def ValuesGoodList : List (Obj ℝ) → Prop
  | [] => True
  | x :: xs => ValuesGood x ∧ ValuesGoodList xs
/-- in all entries -/
def ValuesGoodDict : List (String × Obj ℝ) → Prop
  | [] => True
  | (_, x) :: xs => ValuesGood x ∧ ValuesGoodDict xs
end

mutual
/-- what a JSON text can contain: scalars, lists, objects -/
def IsJson : Obj ℝ → Prop
  | .null => True
  | .bool _ => True
  | .num _ => True
  | .str _ => True
  | .list xs => IsJsonList xs
  | .dict kvs => IsJsonDict kvs
  | .value _ => False
  | .ndarray _ _ => False
  | .sparse _ => False
/-- in all elements -/
def IsJsonList : List (Obj ℝ) → Prop
  | [] => True
  | x :: xs => IsJson x ∧ IsJsonList xs
/-- in all entries -/
def IsJsonDict : List (String × Obj ℝ) → Prop
  | [] => True
  | (_, x) :: xs => IsJson x ∧ IsJsonDict xs
end

theorem ValuesGoodDict.get {kvs : List (String × Obj ℝ)} (h : ValuesGoodDict kvs) {k : String} {x : Obj ℝ}
    (hx : Dict.get? kvs k = some x) : ValuesGood x := by
  induction kvs with
  | nil => cases hx
  | cons a kvs ih =>
    obtain ⟨k', v⟩ := a
    rw [Dict.get?_cons] at hx
    simp only [ValuesGoodDict] at h
    split at hx
    · injection hx with hx; exact hx ▸ h.1
    · exact ih h.2 hx

theorem decodeHook_good {kvs : List (String × Obj ℝ)} {t : Obj ℝ} (h : ValuesGoodDict kvs)
    (d : decodeHook env kvs = .ok t) : ValuesGood t := by
  unfold decodeHook at d
  split at d
  · rename_i x hx
    obtain ⟨v, h1, h2⟩ := bind_eq_ok.mp d
    simp only [pure_eq_ok, Except.ok.injEq] at h2
    subst h2
    simp only [fromJson, hx] at h1
    exact ofKeywords_good env _ _ h1
  · split at d
    · rename_i x hx
      obtain ⟨_, -, d⟩ := bind_eq_ok.mp d
      simp only [pure_eq_ok, Except.ok.injEq] at d
      subst d
      cases hd : Dict.get? kvs "dtype" with
      | none => rw [ValuesGood]; exact h.get hx
      | some y => rw [ValuesGood]; exact ⟨h.get hx, h.get hd⟩
    · split at d
      · split at d
        · obtain ⟨_, -, d⟩ := bind_eq_ok.mp d
          simp only [pure_eq_ok, Except.ok.injEq] at d
          subst d; rw [ValuesGood]; exact h
        · simp only [pure_eq_ok, Except.ok.injEq] at d
          subst d; rw [ValuesGood]; exact h
      · simp only [pure_eq_ok, Except.ok.injEq] at d
        subst d; rw [ValuesGood]; exact h

mutual
theorem decode_good : ∀ j t : Obj ℝ, IsJson j → decode env j = .ok t → ValuesGood t
  | .null, _, _, d => by simp only [decode, Except.ok.injEq] at d; subst d; trivial
  | .bool _, _, _, d => by simp only [decode, Except.ok.injEq] at d; subst d; trivial
  | .num _, _, _, d => by simp only [decode, Except.ok.injEq] at d; subst d; trivial
  | .str _, _, _, d => by simp only [decode, Except.ok.injEq] at d; subst d; trivial
  | .list xs, t, h, d => by
    rw [decode] at d
    obtain ⟨ys, h1, h2⟩ := bind_eq_ok.mp d
    simp only [pure_eq_ok, Except.ok.injEq] at h2
    subst h2
    rw [ValuesGood]
    exact decodeList_good _ _ h h1
  | .dict kvs, t, h, d => by
    rw [decode] at d
    obtain ⟨ys, h1, h2⟩ := bind_eq_ok.mp d
    exact decodeHook_good env (decodeDict_good _ _ h h1) h2
  | .value _, _, h, _ => h.elim
  | .ndarray _ _, _, h, _ => h.elim
  | .sparse _, _, h, _ => h.elim
theorem decodeList_good : ∀ js ts : List (Obj ℝ), IsJsonList js → decodeList env js = .ok ts → ValuesGoodList ts
  | [], _, _, d => by simp only [decodeList, Except.ok.injEq] at d; subst d; trivial
  | j :: js, t, h, d => by
    rw [decodeList] at d
    obtain ⟨y, h1, d⟩ := bind_eq_ok.mp d
    obtain ⟨ys, h2, d⟩ := bind_eq_ok.mp d
    simp only [pure_eq_ok, Except.ok.injEq] at d
    subst d
    rw [ValuesGoodList]
    exact ⟨decode_good _ _ h.1 h1, decodeList_good _ _ h.2 h2⟩
theorem decodeDict_good : ∀ js ts : List (String × Obj ℝ), IsJsonDict js → decodeDict env js = .ok ts → ValuesGoodDict ts
  | [], _, _, d => by simp only [decodeDict, Except.ok.injEq] at d; subst d; trivial
  | (k, j) :: js, t, h, d => by
    rw [decodeDict] at d
    obtain ⟨y, h1, d⟩ := bind_eq_ok.mp d
    obtain ⟨ys, h2, d⟩ := bind_eq_ok.mp d
    simp only [pure_eq_ok, Except.ok.injEq] at d
    subst d
    rw [ValuesGoodDict]
    exact ⟨decode_good _ _ h.1 h1, decodeDict_good _ _ h.2 h2⟩
end

/-- C11.  Whatever is loaded from any JSON text contains, anywhere in it, no Value with an undocumented unit. -/
theorem C11_decoded_values_good (j t : Obj ℝ) (hj : IsJson j) (h : decode env j = .ok t) : ValuesGood t :=
  decode_good env j t hj h

mutual
/-- an array or a sparse matrix occurs in the nested lists and dicts -/
def HasArray : Obj ℝ → Prop
  | .null => False
  | .bool _ => False
  | .num _ => False
  | .str _ => False
  | .list xs => HasArrayList xs
  | .dict kvs => HasArrayDict kvs
  | .value _ => False
  | .ndarray _ _ => True
  | .sparse _ => True
/-- in some element -/
def HasArrayList : List (Obj ℝ) → Prop
  | [] => False
  | x :: xs => HasArray x ∨ HasArrayList xs
/-- in some entry -/
def HasArrayDict : List (String × Obj ℝ) → Prop
  | [] => False
  | (_, x) :: xs => HasArray x ∨ HasArrayDict xs
end

mutual
theorem encode_cases : ∀ t : Obj ℝ, (¬ HasArray t ∧ ∃ j, encode t = .ok j ∧ IsJson j) ∨ (HasArray t ∧ encode t = .error .TypeError)
  | .null => .inl ⟨id, .null, by simp [encode], trivial⟩
  | .bool b => .inl ⟨id, .bool b, by simp [encode], trivial⟩
  | .num x => .inl ⟨id, .num x, by simp [encode], trivial⟩
  | .str s => .inl ⟨id, .str s, by simp [encode], trivial⟩
  | .list xs => by
    rcases encodeList_cases xs with ⟨h, js, e, hj⟩ | ⟨h, e⟩
    · exact .inl ⟨by simpa [HasArray] using h, .list js, by simp [encode, e], by simpa [IsJson] using hj⟩
    · exact .inr ⟨by simpa [HasArray] using h, by simp [encode, e]⟩
  | .dict kvs => by
    rcases encodeDict_cases kvs with ⟨h, js, e, hj⟩ | ⟨h, e⟩
    · exact .inl ⟨by simpa [HasArray] using h, .dict js, by simp [encode, e], by simpa [IsJson] using hj⟩
    · exact .inr ⟨by simpa [HasArray] using h, by simp [encode, e]⟩
  | .value v => .inl ⟨by simp [HasArray], forJson v, by simp [encode], by
      obtain ⟨x, u⟩ := v
      cases u <;> simp [forJson, ofUnits, IsJson, IsJsonDict]⟩
  | .ndarray _ _ => .inr ⟨trivial, by simp [encode]⟩
  | .sparse _ => .inr ⟨trivial, by simp [encode]⟩
theorem encodeList_cases : ∀ ts : List (Obj ℝ), (¬ HasArrayList ts ∧ ∃ js, encodeList ts = .ok js ∧ IsJsonList js) ∨
    (HasArrayList ts ∧ encodeList ts = .error .TypeError)
  | [] => .inl ⟨id, [], by simp [encodeList], trivial⟩
  | t :: ts => by
    rcases encode_cases t with ⟨h1, j, e1, g1⟩ | ⟨h1, e1⟩
    · rcases encodeList_cases ts with ⟨h2, js, e2, g2⟩ | ⟨h2, e2⟩
      · exact .inl ⟨by simp [HasArrayList, h1, h2], j :: js, by simp [encodeList, e1, e2], g1, g2⟩
      · exact .inr ⟨.inr h2, by simp [encodeList, e1, e2]⟩
    · exact .inr ⟨.inl h1, by simp [encodeList, e1]⟩
theorem encodeDict_cases : ∀ ts : List (String × Obj ℝ), (¬ HasArrayDict ts ∧ ∃ js, encodeDict ts = .ok js ∧ IsJsonDict js) ∨
    (HasArrayDict ts ∧ encodeDict ts = .error .TypeError)
  | [] => .inl ⟨id, [], by simp [encodeDict], trivial⟩
  | (k, t) :: ts => by
    rcases encode_cases t with ⟨h1, j, e1, g1⟩ | ⟨h1, e1⟩
    · rcases encodeDict_cases ts with ⟨h2, js, e2, g2⟩ | ⟨h2, e2⟩
      · exact .inl ⟨by simp [HasArrayDict, h1, h2], (k, j) :: js, by simp [encodeDict, e1, e2], g1, g2⟩
      · exact .inr ⟨.inr h2, by simp [encodeDict, e1, e2]⟩
    · exact .inr ⟨.inl h1, by simp [encodeDict, e1]⟩
end

/-- C11.  `dumps` writes every tree without arrays, of any depth, and what it writes is JSON; an array or sparse
matrix anywhere makes it raise TypeError.  So an array that was loaded cannot be written back. -/
theorem C11_dumps (t : Obj ℝ) : (¬ HasArray t → ∃ j, encode t = .ok j ∧ IsJson j) ∧ (HasArray t → encode t = .error .TypeError) := by
  rcases encode_cases t with ⟨h, e⟩ | ⟨h, e⟩
  · exact ⟨fun _ => e, fun h' => absurd h' h⟩
  · exact ⟨fun h' => absurd h h', fun _ => e⟩

/-- Both cases of `C11_dumps`, with an array from `loads`. -/
example (ha : env.makeArray (.list [.num 1]) none = .ok ()) : ¬ HasArray (.list [.dict [("a", .value ⟨1, none⟩)]]) ∧
    ∃ t, decode env (.dict [("a", .dict [("__ndarray__", .list [.num 1])])]) = .ok t ∧ HasArray t := by
  refine ⟨by simp [HasArray, HasArrayList, HasArrayDict], .dict [("a", .ndarray (.list [.num 1]) none)], ?_, ?_⟩
  · simp [decode, decodeDict, decodeList, decodeHook, Dict.get?_cons, Dict.get?, Dict.contains, ha]
  · simp [HasArray, HasArrayDict]

/-- `float(v)` is the number `y` -/
def FloatIs (v : Obj ℝ) (y : ℝ) : Prop :=
  v = .num y ∨ (v = .bool true ∧ y = 1) ∨ (v = .bool false ∧ y = 0) ∨ (∃ w, v = .value w ∧ w.value = y) ∨
  (∃ s, v = .str s ∧ env.floatOfStr s = some y) ∨ (∃ d t, v = .ndarray d t ∧ env.floatOfArray d t = .ok y)

/-- lists, dicts, Values, arrays and sparse matrices, which Python 3 cannot hash -/
def Unhashable (v : Obj ℝ) : Prop :=
  (∃ l, v = .list l) ∨ (∃ l, v = .dict l) ∨ (∃ w, v = .value w) ∨ (∃ d t, v = .ndarray d t) ∨ ∃ l, v = .sparse l

theorem toFloat_of {v : Obj ℝ} {y : ℝ} (h : FloatIs env v y) : toFloat env v = .ok (some y) := by
  rcases h with rfl | ⟨rfl, rfl⟩ | ⟨rfl, rfl⟩ | ⟨w, rfl, rfl⟩ | ⟨s, rfl, h⟩ | ⟨d, t, rfl, h⟩
  · rfl
  · simp [toFloat]
  · simp [toFloat]
  · rfl
  · simp [toFloat, h]
  · simp [toFloat, h]

/-- C11.  What loading gives for an object with the key `__value__`, in all cases. -/
theorem C11_load_value {kvs : List (String × Obj ℝ)} {x : Obj ℝ} (hx : Dict.get? kvs "__value__" = some x) :
    ((∀ d, x ≠ .dict d) → decodeHook env kvs = .error .TypeError) ∧
    ∀ d, x = .dict d →
      ((∃ k ∈ d.map (·.1), k ≠ "value" ∧ k ≠ "units") ∨ "value" ∉ d.map (·.1) → decodeHook env kvs = .error .TypeError) ∧
      ((∀ k ∈ d.map (·.1), k = "value" ∨ k = "units") → ∀ v, Dict.get? d "value" = some v →
        (v = .null → decodeHook env kvs = .error .ValueError) ∧
        ((∃ l, v = .list l) ∨ (∃ l, v = .dict l) ∨ (∃ l, v = .sparse l) → decodeHook env kvs = .error .TypeError) ∧
        (∀ s, v = .str s → env.floatOfStr s = none → decodeHook env kvs = .error .ValueError) ∧
        (∀ c t e, v = .ndarray c t → env.floatOfArray c t = .error e → decodeHook env kvs = .error e) ∧
        (∀ y, FloatIs env v y →
          (Dict.get? d "units" = none ∨ Dict.get? d "units" = some .null → decodeHook env kvs = .ok (.value ⟨y, none⟩)) ∧
          (∀ n, Dict.get? d "units" = some (.str n) →
            (GoodUnits (some n) → decodeHook env kvs = .ok (.value ⟨y, some n⟩)) ∧
            (¬ GoodUnits (some n) → decodeHook env kvs = .error .ValueError)) ∧
          (∀ u, Dict.get? d "units" = some u → (∃ b, u = .bool b) ∨ (∃ z, u = .num z) → decodeHook env kvs = .error .ValueError) ∧
          (∀ u, Dict.get? d "units" = some u → Unhashable u →
            decodeHook env kvs = .error (match env.ver with | .py2 => .ValueError | .py3 => .TypeError)))) := by
  have red : decodeHook env kvs = (do let v ← ofKeywords env x; pure (.value v)) := by
    simp only [decodeHook, hx, fromJson]
  rw [red]
  refine ⟨fun h => ?_, fun d hd => ?_⟩
  · cases x <;> first | exact absurd rfl (h _) | rfl
  subst hd
  refine ⟨fun h => ?_, fun hk v hv => ?_⟩
  · have : ofKeywords env (.dict d) = .error .TypeError := by
      rw [ofKeywords]
      split_ifs with hall
      · rcases h with ⟨k, hk, h1, h2⟩ | h
        · obtain ⟨kv, hkv, rfl⟩ := List.mem_map.mp hk
          have := List.all_eq_true.mp hall kv hkv
          simp [h1, h2] at this
        · rw [(get?_none_iff _ _).mpr h]
      · rfl
    rw [this]; rfl
  have hall : d.all (fun kv => kv.1 == "value" || kv.1 == "units") = true := by
    rw [List.all_eq_true]
    intro kv hkv
    simpa using hk kv.1 (List.mem_map_of_mem hkv)
  have red2 : ofKeywords env (.dict d) = toFloat env v >>= fun v' => match v' with
      | none => raise .ValueError
      | some v' => (match Dict.get? d "units" with
          | none => .ok none
          | some u => Json.toUnits env u) >>= fun u => Value.make (some v') u := by
    rw [ofKeywords, if_pos hall, hv]
    dsimp only
    rcases toFloat env v with e | (_ | y) <;> cases Dict.get? d "units" <;> rfl
  rw [red2]
  refine ⟨?_, ?_, ?_, ?_, ?_⟩
  · rintro rfl; rfl
  · rintro (⟨l, rfl⟩ | ⟨l, rfl⟩ | ⟨l, rfl⟩) <;> rfl
  · rintro s rfl h
    simp [toFloat, h]
  · rintro c t e rfl h
    simp [toFloat, h]
  · intro y hy
    rw [toFloat_of env hy]
    refine ⟨?_, ?_, ?_, ?_⟩
    · rintro (h | h) <;> rw [h] <;> simp [Json.toUnits, Value.make]
    · intro n h
      rw [h]
      refine ⟨fun hg => ?_, fun hg => ?_⟩
      · simp [Json.toUnits, Value.make_good hg]
      · simp [Json.toUnits, Value.make_bad hg]
    · rintro u h (⟨b, rfl⟩ | ⟨z, rfl⟩) <;> rw [h] <;> cases hv : env.ver <;> simp [Json.toUnits, hv, hashable]
    · rintro u h (⟨b, rfl⟩ | ⟨b, rfl⟩ | ⟨b, rfl⟩ | ⟨b, c, rfl⟩ | ⟨b, rfl⟩) <;> rw [h] <;> cases hv : env.ver <;>
        simp [Json.toUnits, hv, hashable]

/-- Non-vacuity: a list of units, with a string that is a number. -/
example (e : Env ℝ) (h2 : e.ver = .py3) (h : e.floatOfStr "2.5" = some 2.5) :
    decodeHook e [("__value__", .dict [("units", .list []), ("value", .str "2.5")])] = .error .TypeError := by
  have := ((C11_load_value e (kvs := [("__value__", .dict [("units", .list []), ("value", .str "2.5")])]) rfl).2 _ rfl).2
    (by simp) (.str "2.5") rfl
  have := (this.2.2.2.2 2.5 (.inr (.inr (.inr (.inr (.inl ⟨_, rfl, h⟩)))))).2.2.2 (.list []) rfl (.inl ⟨_, rfl⟩)
  rw [this, h2]

/-- The definition of `ValuesGood` reaches Values at any depth. -/
example : ¬ ValuesGood (.list [.dict [("a", .list [.null, .value ⟨1, some "furlong"⟩])]]) := by
  simp only [ValuesGood, ValuesGoodList, ValuesGoodDict]
  rintro ⟨⟨⟨-, h | ⟨n, U, h, hU⟩, -⟩, -⟩, -⟩
  · cases h
  · cases h
    have : unitOf "furlong" = none := by simp [unitOf, unitDefs]
    rw [UnitIs, this] at hU; cases hU

/-- Non-vacuity: a nested tree with a Value inside. -/
example : Storable (.dict [("a", .list [.num 1, .value ⟨2, some "cm"⟩, .null]), ("b", .dict [])]) := by
  refine ⟨by simp [Reserved], ?_⟩
  simp only [StorableDict, Storable, StorableList, and_true, true_and]
  exact ⟨Or.inr ⟨"cm", _, rfl, rfl⟩, by simp [Reserved]⟩

end Blmath.Props
