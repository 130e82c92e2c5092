import Verif.Props.Value
import Verif.Model.ValueOther

/-!
Properties C90 and C91: Values and operands that are not numbers; `sum`, `min`, `max` of Values.
-/

namespace Blmath.Props
open Blmath Blmath.Value Blmath.Spec

/-! ### C90 -/

mutual
/-- an operand of the model of `value.py` as an object -/
def objOf {α : Type} : Operand α → PyObj α
  | .num x => .num x
  | .val v => .val v
  | .list xs => .list (objsOf xs)
/-- items -/
def objsOf {α : Type} : List (Operand α) → List (PyObj α)
  | [] => []
  | x :: xs => objOf x :: objsOf xs
end

mutual
/-- how deep lists are nested -/
def nesting {α : Type} : Operand α → ℕ
  | .num _ => 0
  | .val _ => 0
  | .list xs => nestings xs + 1
/-- the deepest item -/
def nestings {α : Type} : List (Operand α) → ℕ
  | [] => 0
  | x :: xs => max (nesting x) (nestings xs)
end

/-- the outcome of an operator, as an object -/
def objResult {α : Type} (r : PyM (Operand α)) : PyM (PyObj α) := r.map objOf

theorem objResult_list {α : Type} (r : PyM (List (Operand α))) :
    objResult (r >>= fun ys => pure (.list ys)) = (r.map objsOf >>= fun ys => pure (.list ys)) := by
  cases r <;> simp [objResult, objOf, Except.map]

theorem objResult_val {α : Type} (r : PyM (Value α)) :
    objResult (r >>= fun v => pure (.val v)) = (r >>= fun v => pure (.val v)) := by
  cases r <;> simp [objResult, objOf, Except.map]

section
variable (ver : PyVer) (read : List Char → Option ℝ) (a : Value ℝ)

mutual
theorem mulObj_of (x : Operand ℝ) (d : ℕ) (h : nesting x < d) : mulObj ver a d (objOf x) = objResult (a.mul x) := by
  obtain ⟨d, rfl⟩ : ∃ e, d = e + 1 := ⟨d - 1, by omega⟩
  cases x with
  | num x => simp only [objOf, mulObj, items, mul, objResult_val]
  | val v => simp [objOf, mulObj, mul, objResult, Except.map]
  | list xs =>
    rw [nesting] at h
    simp only [objOf, mulObj, items, mul, objResult_list]
    rw [mulObj_of_list xs d (by omega)]
theorem mulObj_of_list (xs : List (Operand ℝ)) (d : ℕ) (h : nestings xs < d) :
    (objsOf xs).mapM (mulObj ver a d) = (mulList a xs).map objsOf := by
  cases xs with
  | nil => simp [objsOf, mulList, Except.map]
  | cons x xs =>
    rw [nestings] at h
    rw [objsOf, List.mapM_cons, mulObj_of x d (by omega), mulObj_of_list xs d (by omega)]
    cases h1 : a.mul x <;> cases h2 : mulList a xs <;> simp [mulList, objResult, Except.map, h1, h2, objsOf]
end

theorem comparableObj_of (x : Operand ℝ) : comparableObj read a (objOf x) = a.comparable x := by
  cases x with
  | num x => rfl
  | list xs => rfl
  | val v => rfl

mutual
theorem addObj_of (x : Operand ℝ) (d : ℕ) (h : nesting x < d) : addObj ver read a d (objOf x) = objResult (a.add x) := by
  obtain ⟨d, rfl⟩ : ∃ e, d = e + 1 := ⟨d - 1, by omega⟩
  cases x with
  | num x =>
    have := comparableObj_of read a (.num x)
    simp only [objOf] at this
    simp only [objOf, addObj, items, add, this]
    cases a.comparable (.num x) <;> simp [objResult_val, objResult, Except.map]
    cases make (some (a.value + _)) a.units <;> simp [objOf]
  | val v =>
    have := comparableObj_of read a (.val v)
    simp only [objOf] at this
    simp only [objOf, addObj, items, add, this]
    cases a.comparable (.val v) <;> simp [objResult_val, objResult, Except.map]
    cases make (some (a.value + _)) a.units <;> simp [objOf]
  | list xs =>
    rw [nesting] at h
    simp only [objOf, addObj, items, add, objResult_list]
    rw [addObj_of_list xs d (by omega)]
theorem addObj_of_list (xs : List (Operand ℝ)) (d : ℕ) (h : nestings xs < d) :
    (objsOf xs).mapM (addObj ver read a d) = (addList a xs).map objsOf := by
  cases xs with
  | nil => simp [objsOf, addList, Except.map]
  | cons x xs =>
    rw [nestings] at h
    rw [objsOf, List.mapM_cons, addObj_of x d (by omega), addObj_of_list xs d (by omega)]
    cases h1 : a.add x <;> cases h2 : addList a xs <;> simp [addList, objResult, Except.map, h1, h2, objsOf]
end

mutual
theorem subObj_of (x : Operand ℝ) (d : ℕ) (h : nesting x < d) : subObj ver read a d (objOf x) = objResult (a.sub x) := by
  obtain ⟨d, rfl⟩ : ∃ e, d = e + 1 := ⟨d - 1, by omega⟩
  cases x with
  | num x =>
    have := comparableObj_of read a (.num x)
    simp only [objOf] at this
    simp only [objOf, subObj, items, sub, this]
    cases a.comparable (.num x) <;> simp [objResult_val, objResult, Except.map]
    cases make (some (a.value - _)) a.units <;> simp [objOf]
  | val v =>
    have := comparableObj_of read a (.val v)
    simp only [objOf] at this
    simp only [objOf, subObj, items, sub, this]
    cases a.comparable (.val v) <;> simp [objResult_val, objResult, Except.map]
    cases make (some (a.value - _)) a.units <;> simp [objOf]
  | list xs =>
    rw [nesting] at h
    simp only [objOf, subObj, items, sub, objResult_list]
    rw [subObj_of_list xs d (by omega)]
theorem subObj_of_list (xs : List (Operand ℝ)) (d : ℕ) (h : nestings xs < d) :
    (objsOf xs).mapM (subObj ver read a d) = (subList a xs).map objsOf := by
  cases xs with
  | nil => simp [objsOf, subList, Except.map]
  | cons x xs =>
    rw [nestings] at h
    rw [objsOf, List.mapM_cons, subObj_of x d (by omega), subObj_of_list xs d (by omega)]
    cases h1 : a.sub x <;> cases h2 : subList a xs <;> simp [subList, objResult, Except.map, h1, h2, objsOf]
end

mutual
theorem rsubObj_of (x : Operand ℝ) (d : ℕ) (h : nesting x < d) : rsubObj ver read a d (objOf x) = objResult (a.rsub x) := by
  obtain ⟨d, rfl⟩ : ∃ e, d = e + 1 := ⟨d - 1, by omega⟩
  cases x with
  | num x =>
    have := comparableObj_of read a (.num x)
    simp only [objOf] at this
    simp only [objOf, rsubObj, items, rsub, this]
    cases a.comparable (.num x) <;> simp [objResult_val, objResult, Except.map]
    cases make (some (_ - a.value)) a.units <;> simp [objOf]
  | val v =>
    have := subObj_of ver read v (.val a) (d + 1) (by simp [nesting])
    rw [objOf] at this
    simp only [objOf, rsubObj, rsub, this]
  | list xs =>
    rw [nesting] at h
    simp only [objOf, rsubObj, items, rsub, objResult_list]
    rw [rsubObj_of_list xs d (by omega)]
theorem rsubObj_of_list (xs : List (Operand ℝ)) (d : ℕ) (h : nestings xs < d) :
    (objsOf xs).mapM (rsubObj ver read a d) = (rsubList a xs).map objsOf := by
  cases xs with
  | nil => simp [objsOf, rsubList, Except.map]
  | cons x xs =>
    rw [nestings] at h
    rw [objsOf, List.mapM_cons, rsubObj_of x d (by omega), rsubObj_of_list xs d (by omega)]
    cases h1 : a.rsub x <;> cases h2 : rsubList a xs <;> simp [rsubList, objResult, Except.map, h1, h2, objsOf]
end

/-- C90.  For numbers, Values and lists of those, nested less deep than the limit on open calls, the operators are those
of C06–C08, on both Python versions. -/
theorem C90_numbers (x : Operand ℝ) (d : ℕ) (h : nesting x < d) (c : Cmp) :
    mulObj ver a d (objOf x) = (a.mul x).map objOf ∧
    addObj ver read a d (objOf x) = (a.add x).map objOf ∧
    subObj ver read a d (objOf x) = (a.sub x).map objOf ∧
    rsubObj ver read a d (objOf x) = (a.rsub x).map objOf ∧
    truedivObj a (objOf x) = a.truediv x ∧ floordivObj a (objOf x) = a.floordiv x ∧
    compareObj read c a (objOf x) = compareOp c a x := by
  refine ⟨mulObj_of ver a x d h, addObj_of ver read a x d h, subObj_of ver read a x d h, rsubObj_of ver read a x d h, ?_, ?_, ?_⟩
  · cases x <;> rfl
  · cases x <;> rfl
  · rw [compareObj, comparableObj_of, compareOp]

/-- C90.  `None`: every operator raises TypeError.  In particular a Value cannot be compared with `None`, not even for
equality. -/
theorem C90_none (d : ℕ) (c : Cmp) :
    mulObj ver a (d + 1) .none = .error .TypeError ∧ addObj ver read a (d + 1) .none = .error .TypeError ∧
    subObj ver read a (d + 1) .none = .error .TypeError ∧ rsubObj ver read a (d + 1) .none = .error .TypeError ∧
    truedivObj a .none = .error .TypeError ∧ floordivObj a .none = .error .TypeError ∧
    compareObj read c a .none = .error .TypeError := by
  simp [mulObj, addObj, subObj, rsubObj, truedivObj, floordivObj, compareObj, items, comparableObj, toFloat]

/-- C90.  Text on Python 3: `+`, `-` on both sides and `*` never come to an end, whatever the limit on open calls, unless
the text is empty, which gives the empty list. -/
theorem C90_text_python3 (d : ℕ) (s : List Char) :
    (s ≠ [] → mulObj .py3 a d (.text s) = .error .RecursionError ∧
      addObj .py3 read a d (.text s) = .error .RecursionError ∧
      subObj .py3 read a d (.text s) = .error .RecursionError ∧
      rsubObj .py3 read a d (.text s) = .error .RecursionError) ∧
    mulObj .py3 a (d + 1) (.text []) = .ok (.list []) ∧ addObj .py3 read a (d + 1) (.text []) = .ok (.list []) ∧
    subObj .py3 read a (d + 1) (.text []) = .ok (.list []) ∧ rsubObj .py3 read a (d + 1) (.text []) = .ok (.list []) := by
  refine ⟨?_, by simp [mulObj, items], by simp [addObj, items], by simp [subObj, items], by simp [rsubObj, items]⟩
  induction d generalizing s with
  | zero => intro _; simp [mulObj, addObj, subObj, rsubObj]
  | succ d ih =>
    intro hs
    obtain ⟨c, s, rfl⟩ := List.exists_cons_of_ne_nil hs
    obtain ⟨h1, h2, h3, h4⟩ := ih [c] (by simp)
    refine ⟨?_, ?_, ?_, ?_⟩
    · simp [mulObj, items, List.mapM_cons, h1]
    · simp [addObj, items, List.mapM_cons, h2]
    · simp [subObj, items, List.mapM_cons, h3]
    · simp [rsubObj, items, List.mapM_cons, h4]

/-- C90.  Text on Python 2: `+` and `-` take a text that stands for a number as that number and raise ValueError for any
other; `*` raises TypeError. -/
theorem C90_text_python2 (d : ℕ) (s : List Char) :
    mulObj .py2 a (d + 1) (.text s) = .error .TypeError ∧
    (read s = none → addObj .py2 read a (d + 1) (.text s) = .error .ValueError ∧
      subObj .py2 read a (d + 1) (.text s) = .error .ValueError ∧
      rsubObj .py2 read a (d + 1) (.text s) = .error .ValueError) ∧
    (∀ x, read s = some x → addObj .py2 read a (d + 1) (.text s) = addObj .py2 read a (d + 1) (.num x) ∧
      subObj .py2 read a (d + 1) (.text s) = subObj .py2 read a (d + 1) (.num x) ∧
      rsubObj .py2 read a (d + 1) (.text s) = rsubObj .py2 read a (d + 1) (.num x)) := by
  refine ⟨by simp [mulObj, items], ?_, ?_⟩
  · intro h
    simp [addObj, subObj, rsubObj, items, comparableObj, toFloat, h]
  · intro x h
    simp [addObj, subObj, rsubObj, items, comparableObj, toFloat, h]

/-- C90.  Comparisons with text read the text as a number, on both versions: a text equal in number to the Value is equal
to it whatever its units, and one that is no number raises ValueError, also for `==` and `!=`.  Division by text raises
TypeError. -/
theorem C90_text_compare (s : List Char) (c : Cmp) :
    (∀ x, read s = some x → ∃ b, compareObj read c a (.text s) = .ok b ∧ (b = true ↔ cmpRel c a.value x)) ∧
    (read s = none → compareObj read c a (.text s) = .error .ValueError) ∧
    truedivObj a (.text s) = .error .TypeError ∧ floordivObj a (.text s) = .error .TypeError := by
  refine ⟨?_, ?_, rfl, rfl⟩
  · intro x h
    refine ⟨c.apply a.value x, by simp [compareObj, comparableObj, toFloat, h], ?_⟩
    cases c <;> simp [Cmp.apply, cmpRel, Bool.eq_false_iff]
  · intro h
    simp [compareObj, comparableObj, toFloat, h]

/-- C90.  The constructor and the `value` setter take anything `float` takes.  A Value given as the value loses its
units: `Value(Value(x, u), w)` is `x` of `w`, not a conversion.  A text is read; lists raise TypeError, `None` and
texts that are no numbers ValueError. -/
theorem C90_constructor (v : Value ℝ) (x : ℝ) (s : List Char) (xs : List (PyObj ℝ)) (w : Option String) :
    makeFrom read (.val v) w = make (some v.value) w ∧ makeFrom read (.num x) w = make (some x) w ∧
    makeFrom read (.text s) w = (match read s with
      | some x => make (some x) w
      | none => .error .ValueError) ∧
    makeFrom read .none w = .error .ValueError ∧ makeFrom read (.list xs) w = .error .TypeError ∧
    assignValue read a (.val v) = .ok ⟨v.value, a.units⟩ ∧ assignValue read a (.num x) = .ok ⟨x, a.units⟩ ∧
    assignValue read a (.text s) = (match read s with
      | some x => .ok ⟨x, a.units⟩
      | none => .error .ValueError) ∧
    assignValue read a .none = .error .ValueError ∧ assignValue read a (.list xs) = .error .TypeError := by
  refine ⟨by simp [makeFrom, toFloat], by simp [makeFrom, toFloat], ?_, by simp [makeFrom], by simp [makeFrom, toFloat],
    by simp [assignValue, toFloat], by simp [assignValue, toFloat], ?_, by simp [assignValue], by simp [assignValue, toFloat]⟩
  · cases h : read s <;> simp [makeFrom, toFloat, h]
  · cases h : read s <;> simp [assignValue, toFloat, h]

end

/-- C90.  Hence wrapping a Value changes the quantity: one metre wrapped in centimetres is one centimetre. -/
theorem C90_rewrapped (read : List Char → Option ℝ) :
    ∃ r, makeFrom read (.val ⟨1, some "m"⟩) (some "cm") = .ok r ∧
      Denotes ⟨1, some "m"⟩ (some "length") 1 ∧ Denotes r (some "length") (1 / 100) := by
  refine ⟨⟨1, some "cm"⟩, ?_, ⟨_, ⟨_, rfl, rfl, rfl⟩, by norm_num⟩, ⟨_, ⟨_, rfl, rfl, rfl⟩, by norm_num⟩⟩
  rw [(C90_constructor read ⟨0, none⟩ _ 0 [] [] _).1]
  have hm : Measures (some "cm") (some "length") (1 / 100) := ⟨_, rfl, rfl, by norm_num⟩
  exact make_good (measures_good hm) _

/-! ### C91 -/

theorem sumFrom_denotes {k : Option String} : ∀ (xs : List (Value ℝ)) (qs : List ℝ) (a : Value ℝ) (q : ℝ), Denotes a k q →
    List.Forall₂ (fun v q => Denotes v k q) xs qs →
    ∃ r, sumFrom a xs = .ok r ∧ r.units = a.units ∧ Denotes r k (q + qs.sum) := by
  intro xs
  induction xs with
  | nil =>
    intro qs a q ha h
    cases h
    exact ⟨a, rfl, rfl, by simpa using ha⟩
  | cons x xs ih =>
    intro qs a q ha h
    cases h with
    | cons hx hxs =>
      obtain ⟨⟨r, hr, hu, hd⟩, -⟩ := C06_add_sub ha hx
      obtain ⟨w, hw, hwu, hwd⟩ := ih _ r _ hd hxs
      refine ⟨w, by simp [sumFrom, hr, hw], by rw [hwu, hu], ?_⟩
      rw [List.sum_cons, ← add_assoc]
      exact hwd

/-- C91.  `sum` of Values of one kind, in any units: a Value in the units of the first item that denotes the sum of the
quantities. -/
theorem C91_sum {k : Option String} (x : Value ℝ) (xs : List (Value ℝ)) (qs : List ℝ)
    (h : List.Forall₂ (fun v q => Denotes v k q) (x :: xs) qs) :
    ∃ r, Value.sum (x :: xs) = .ok (.val r) ∧ r.units = x.units ∧ Denotes r k qs.sum := by
  cases h with
  | @cons _ q _ qs hx hxs =>
    obtain ⟨s, hs, rfl⟩ := hx
    have h0 : Denotes ⟨0, x.units⟩ k 0 := ⟨s, hs, by simp⟩
    obtain ⟨⟨r, hr, hu, hd⟩, -⟩ := C06_scalar (x := 0) ⟨s, hs, rfl⟩ h0
    obtain ⟨w, hw, hwu, hwd⟩ := sumFrom_denotes xs qs r _ hd hxs
    refine ⟨w, ?_, by rw [hwu, hu], ?_⟩
    · have : (Num.lit 0 : ℝ) = 0 := by simp
      simp [Value.sum, hr, hw, -Num.lit_real, this]
    · rw [List.sum_cons]
      simpa using hwd

/-- C91.  The sum of no Values is the number zero, whatever the units of the others would have been. -/
theorem C91_sum_empty : Value.sum ([] : List (Value ℝ)) = .ok (.num 0) := by simp [Value.sum]

/-- C91.  The order does not matter for the quantity, only for the units. -/
theorem C91_sum_order {k : Option String} (x y : Value ℝ) (xs ys : List (Value ℝ)) (qs : List ℝ)
    (h : List.Forall₂ (fun v q => Denotes v k q) (x :: xs) qs) (hp : (x :: xs).Perm (y :: ys)) :
    ∃ r t q, Value.sum (x :: xs) = .ok (.val r) ∧ Value.sum (y :: ys) = .ok (.val t) ∧ Denotes r k q ∧ Denotes t k q := by
  obtain ⟨r, hr, -, hd⟩ := C91_sum x xs qs h
  obtain ⟨ps, hps, hsum⟩ : ∃ ps, List.Forall₂ (fun v q => Denotes v k q) (y :: ys) ps ∧ ps.sum = qs.sum := by
    obtain ⟨ps, h1, h2⟩ := (List.perm_comp_forall₂ hp.symm h)
    exact ⟨ps, h1, h2.sum_eq⟩
  obtain ⟨t, ht, -, htd⟩ := C91_sum y ys ps hps
  exact ⟨r, t, _, hr, ht, hd, hsum ▸ htd⟩

/-- C91.  A Value of another kind anywhere after the first makes `sum` raise. -/
theorem C91_sum_mixed {k l : Option String} (x y : Value ℝ) (xs zs : List (Value ℝ)) (qs : List ℝ) (q : ℝ)
    (h : List.Forall₂ (fun v q => Denotes v k q) (x :: xs) qs) (hy : Denotes y l q) (hkl : k ≠ l) :
    ∃ e, Value.sum (x :: (xs ++ y :: zs)) = .error e := by
  cases h with
  | @cons _ p _ qs hx hxs =>
    obtain ⟨s, hs, rfl⟩ := hx
    have h0 : Denotes ⟨0, x.units⟩ k 0 := ⟨s, hs, by simp⟩
    obtain ⟨⟨r, hr, hu, hd⟩, -⟩ := C06_scalar (x := 0) ⟨s, hs, rfl⟩ h0
    have hrun : ∀ (xs : List (Value ℝ)) (qs : List ℝ) (a : Value ℝ) (p : ℝ), Denotes a k p →
        List.Forall₂ (fun v q => Denotes v k q) xs qs → ∃ e, sumFrom a (xs ++ y :: zs) = .error e := by
      intro xs
      induction xs with
      | nil =>
        intro qs a p ha _
        have := (C06_cross_kind ha hy hkl).1
        exact ⟨_, by simp only [List.nil_append, sumFrom, this]; rfl⟩
      | cons x xs ih =>
        intro qs a p ha h
        cases h with
        | cons hx hxs =>
          obtain ⟨⟨r, hr, -, hd⟩, -⟩ := C06_add_sub ha hx
          obtain ⟨e, he⟩ := ih _ r _ hd hxs
          exact ⟨e, by simp [sumFrom, hr, he]⟩
    obtain ⟨e, he⟩ := hrun xs qs r _ hd hxs
    refine ⟨e, ?_⟩
    have : (Num.lit 0 : ℝ) = 0 := by simp
    simp [Value.sum, hr, he, -Num.lit_real, this]

theorem bestFrom_spec {k : Option String} (c : Cmp) (hc : c = .gt ∨ c = .lt) : ∀ (xs : List (Value ℝ)) (qs : List ℝ) (a : Value ℝ)
    (q : ℝ), Denotes a k q → List.Forall₂ (fun v q => Denotes v k q) xs qs →
    ∃ (i : ℕ) (r : Value ℝ) (m : ℝ), bestFrom c a xs = .ok r ∧ (a :: xs)[i]? = some r ∧ (q :: qs)[i]? = some m ∧
      Denotes r k m ∧ (∀ p ∈ q :: qs, ¬ cmpRel c p m) ∧ (∀ j p, j < i → (q :: qs)[j]? = some p → cmpRel c m p) := by
  intro xs
  induction xs with
  | nil =>
    intro qs a q ha h
    cases h
    refine ⟨0, a, q, rfl, rfl, rfl, ha, ?_, fun j p h => absurd h (Nat.not_lt_zero _)⟩
    intro p hp
    rw [List.mem_singleton.mp hp]
    rcases hc with rfl | rfl <;> simp [cmpRel]
  | cons x xs ih =>
    intro qs a q ha h
    cases h with
    | @cons _ p _ qs hx hxs =>
      obtain ⟨b, hb, hbr⟩ := C07_compare hx ha c
      cases b with
      | true =>
        have hlt := hbr.mp rfl
        obtain ⟨i, r, m, h1, h2, h3, h4, h5, h6⟩ := ih qs x p hx hxs
        refine ⟨i + 1, r, m, by simp [bestFrom, hb, h1], by simpa using h2, by simpa using h3, h4, ?_, ?_⟩
        · intro t ht
          rcases List.mem_cons.mp ht with rfl | ht
          · have := h5 p (List.mem_cons_self ..)
            rcases hc with rfl | rfl <;> simp only [cmpRel] at * <;> linarith
          · exact h5 t ht
        · intro j t hj ht
          cases j with
          | zero =>
            simp only [List.getElem?_cons_zero, Option.some.injEq] at ht
            subst ht
            have := h5 p (List.mem_cons_self ..)
            rcases hc with rfl | rfl <;> simp only [cmpRel] at * <;> linarith
          | succ j => exact h6 j t (by omega) (by simpa using ht)
      | false =>
        have hle : ¬ cmpRel c p q := fun h => by simpa using hbr.mpr h
        obtain ⟨i, r, m, h1, h2, h3, h4, h5, h6⟩ := ih qs a q ha hxs
        cases i with
        | zero =>
          simp only [List.getElem?_cons_zero, Option.some.injEq] at h2 h3
          subst h2 h3
          refine ⟨0, a, q, by simp [bestFrom, hb, h1], rfl, rfl, h4, ?_, fun j p h => absurd h (Nat.not_lt_zero _)⟩
          intro t ht
          rcases List.mem_cons.mp ht with rfl | ht
          · exact h5 _ (List.mem_cons_self ..)
          · rcases List.mem_cons.mp ht with rfl | ht
            · exact hle
            · exact h5 t (List.mem_cons_of_mem _ ht)
        | succ i =>
          refine ⟨i + 2, r, m, by simp [bestFrom, hb, h1], by simpa using h2, by simpa using h3, h4, ?_, ?_⟩
          · have hmq := h6 0 q (by omega) rfl
            intro t ht
            rcases List.mem_cons.mp ht with rfl | ht
            · exact h5 _ (List.mem_cons_self ..)
            · rcases List.mem_cons.mp ht with rfl | ht
              · rcases hc with rfl | rfl <;> simp only [cmpRel] at * <;> linarith
              · exact h5 t (List.mem_cons_of_mem _ ht)
          · have hmq := h6 0 q (by omega) rfl
            intro j t hj ht
            match j with
            | 0 =>
              simp only [List.getElem?_cons_zero, Option.some.injEq] at ht
              exact ht ▸ hmq
            | 1 =>
              simp only [List.getElem?_cons_succ, List.getElem?_cons_zero, Option.some.injEq] at ht
              subst ht
              rcases hc with rfl | rfl <;> simp only [cmpRel] at * <;> linarith
            | j + 2 => exact h6 (j + 1) t (by omega) (by simpa using ht)

/-- C91.  `max` and `min` of Values of one kind, in any units, return the first of the items whose quantity is largest
(smallest), unchanged; without items they raise ValueError. -/
theorem C91_max_min {k : Option String} (x : Value ℝ) (xs : List (Value ℝ)) (qs : List ℝ)
    (h : List.Forall₂ (fun v q => Denotes v k q) (x :: xs) qs) :
    (∃ (i : ℕ) (r : Value ℝ) (m : ℝ), best .gt (x :: xs) = .ok r ∧ (x :: xs)[i]? = some r ∧ qs[i]? = some m ∧
      (∀ p ∈ qs, p ≤ m) ∧ ∀ j p, j < i → qs[j]? = some p → p < m) ∧
    (∃ (i : ℕ) (r : Value ℝ) (m : ℝ), best .lt (x :: xs) = .ok r ∧ (x :: xs)[i]? = some r ∧ qs[i]? = some m ∧
      (∀ p ∈ qs, m ≤ p) ∧ ∀ j p, j < i → qs[j]? = some p → m < p) ∧
    ∀ c, best c ([] : List (Value ℝ)) = .error .ValueError := by
  rw [← and_assoc]
  refine ⟨?_, fun c => rfl⟩
  cases h with
  | @cons _ q _ qs hx hxs =>
    constructor
    · obtain ⟨i, r, m, h1, h2, h3, -, h5, h6⟩ := bestFrom_spec .gt (Or.inl rfl) xs qs x q hx hxs
      exact ⟨i, r, m, h1, h2, h3, fun p hp => not_lt.mp (h5 p hp), fun j p hj hp => h6 j p hj hp⟩
    · obtain ⟨i, r, m, h1, h2, h3, -, h5, h6⟩ := bestFrom_spec .lt (Or.inr rfl) xs qs x q hx hxs
      exact ⟨i, r, m, h1, h2, h3, fun p hp => not_lt.mp (h5 p hp), fun j p hj hp => h6 j p hj hp⟩

/-- Non-vacuity of C91: one foot and one inch, which also shows that the largest number need not win. -/
example : List.Forall₂ (fun v q => Denotes v (some "length") q) [⟨1, some "ft"⟩, ⟨2, some "in"⟩] [0.3048, 0.0508] := by
  refine .cons ⟨_, ⟨_, rfl, rfl, rfl⟩, by norm_num⟩ (.cons ⟨_, ⟨_, rfl, rfl, rfl⟩, by norm_num⟩ .nil)

end Blmath.Props
