import Verif.Model.LcholMemory
import Verif.Spec.Lchol
import Mathlib.Tactic

/-!
Property C98: memory in the C extension.
-/

namespace Blmath.Props
open Blmath.Linalg Blmath.Spec
open CMem (Mem Res PyObj Blk Buf SpArg Lib Bits)

namespace LM
open CMem
variable {α β γ : Type}

@[simp] theorem run_bind (x : CM β) (f : β → CM γ) (m : Mem) : (x >>= f) m = match x m with
    | .ok b m => f b m
    | .null m => .null m
    | .ub => .ub := rfl
@[simp] theorem run_pure (b : β) (m : Mem) : (pure b : CM β) m = .ok b m := rfl
@[simp] theorem run_ub (m : Mem) : (ub : CM β) m = .ub := rfl

@[simp] theorem run_retNull (m : Mem) : (retNull : CM β) m = .null m := rfl
@[simp] theorem run_deref_none (m : Mem) : deref (none : Option β) m = .ub := rfl
@[simp] theorem run_deref_some (b : β) (m : Mem) : deref (some b) m = .ok b m := rfl
@[simp] theorem run_getAttr_none (o : PyObj) (m : Mem) : getAttr o (none : Option β) m = .ok none m := rfl
@[simp] theorem run_getAttr_some (o : PyObj) (b : β) (m : Mem) :
    getAttr o (some b) m = .ok (some b) (m.ref o 1) := rfl
@[simp] theorem run_decref_none (o : PyObj) (m : Mem) : decref o (none : Option β) m = .ub := rfl
@[simp] theorem run_decref_some (o : PyObj) (b : β) (m : Mem) :
    decref o (some b) m = if 0 < m.refs o then .ok () (m.ref o (-1)) else .ub := rfl
@[simp] theorem run_held (o : PyObj) (m : Mem) : held o m = if 0 < m.refs o then .ok () m else .ub := rfl
@[simp] theorem run_alloc (b : Blk) (m : Mem) : alloc b m = .ok () (m.block b true) := rfl
@[simp] theorem run_free (b : Blk) (m : Mem) : free b m = if m.live b then .ok () (m.block b false) else .ub := rfl
@[simp] theorem run_use (b : Blk) (m : Mem) : use b m = if m.live b then .ok () m else .ub := rfl
@[simp] theorem run_give (o : PyObj) (m : Mem) :
    give o m = if 0 < m.refs o then .ok () (m.hand o) else .ub := rfl
@[simp] theorem run_newArr (mem : PyObj → Bool) (o : PyObj) (n : ℕ) (m : Mem) : newArr mem o n m =
    if mem o then .ok (some n) (m.ref o 1) else .ok none m := by
  unfold newArr; by_cases h : mem o <;> simp [h]
@[simp] theorem run_memcpy_none (o : PyObj) (src : List β) (m : Mem) : memcpy o none src m = .ub := rfl
@[simp] theorem run_memcpy_some (o : PyObj) (n : ℕ) (src : List β) (m : Mem) : memcpy o (some n) src m =
    if 0 < m.refs o then if src.length < n then .ub else .ok (src.take n) m else .ub := by
  unfold memcpy; simp only [run_bind, run_deref_some, run_held]; by_cases h' : 0 < m.refs o <;> by_cases h : src.length < n <;> simp [h, h']
@[simp] theorem run_ite (c : Prop) [Decidable c] (x y : CM β) (m : Mem) : (if c then x else y) m = if c then x m else y m := by
  split <;> rfl

@[simp] theorem refs_ref (m : Mem) (o o' : PyObj) (k : ℤ) : (m.ref o k).refs o' = if o' = o then m.refs o' + k else m.refs o' := rfl
@[simp] theorem refs_block (m : Mem) (b : Blk) (v : Bool) (o : PyObj) : (m.block b v).refs o = m.refs o := rfl
@[simp] theorem refs_hand (m : Mem) (o o' : PyObj) : (m.hand o).refs o' = if o' = o then m.refs o' + -1 else m.refs o' := rfl
@[simp] theorem refs_empty (o : PyObj) : Mem.empty.refs o = 0 := rfl
@[simp] theorem live_ref (m : Mem) (o : PyObj) (k : ℤ) : (m.ref o k).live = m.live := rfl
@[simp] theorem live_hand (m : Mem) (o : PyObj) : (m.hand o).live = m.live := rfl
@[simp] theorem live_block (m : Mem) (b b' : Blk) (v : Bool) : (m.block b v).live b' = if b' = b then v else m.live b' := rfl

/-- nothing is held any more, nothing is in use, and the caller has the four arrays -/
def released : Mem := ⟨fun _ => 0, fun _ => false, [.outIndices, .outIndptr, .outData, .outPerm]⟩

/-- the n×n matrix that CHOLMOD sees: entries beyond the last column do not count -/
def seen (n : ℕ) (indptr indices : List ℕ) (data : List α) : Csc α :=
  ⟨n, n, indptr, indices.take (indptr.getLast?.getD 0), data.take (indptr.getLast?.getD 0)⟩

/-- there is memory for everything -/
def enough : PyObj → Bool := fun _ => true

/-- `n` integers in a buffer, if there are so many bytes -/
def ints (bits : Bits α) (b : Buf α) (n : ℕ) : Option (List ℕ) :=
  if b.bytes < 8 * n then none else some (match b with
    | .ints 8 l => l.take n
    | b => bits.toInts b n)

def reals (bits : Bits α) (b : Buf α) (n : ℕ) : Option (List α) :=
  if b.bytes < 8 * n then none else some (match b with
    | .reals 8 l => l.take n
    | b => bits.toReals b n)

theorem run_readInts (bits : Bits α) (b : Buf α) (n : ℕ) (m : Mem) : readInts bits b n m = match ints bits b n with
    | none => .ub
    | some l => .ok l m := by
  unfold readInts ints
  rw [run_ite]
  split
  · rfl
  · dsimp only
    split
    · rfl
    · rename_i hx
      split
      · exact absurd rfl (hx _)
      · rfl

theorem run_readReals (bits : Bits α) (b : Buf α) (n : ℕ) (m : Mem) : readReals bits b n m = match reals bits b n with
    | none => .ub
    | some l => .ok l m := by
  unfold readReals reals
  rw [run_ite]
  split
  · rfl
  · dsimp only
    split
    · rfl
    · rename_i hx
      split
      · exact absurd rfl (hx _)
      · rfl

/-- the matrix in three buffers -/
def load (bits : Bits α) (n : ℕ) (p i x : Buf α) : Option (Csc α) := do
  let indptr ← ints bits p (n + 1)
  let indices ← ints bits i (indptr.getLast?.getD 0)
  let data ← reals bits x (indptr.getLast?.getD 0)
  pure ⟨n, n, indptr, indices, data⟩

theorem run_analyze (lib : Lib α) (bits : Bits α) (n : ℕ) (p i x : Buf α) (m : Mem) (hm : m.live .common = true) :
    analyze lib bits n n p i x m = match load bits n p i x with
      | none => .ub
      | some A => match lib.factor A with
        | none => .ok none m
        | some (minor, perm) => .ok (some (A, minor, perm)) (m.block .factor true) := by
  unfold analyze load
  simp only [run_bind, run_use, hm, if_true, ne_eq, not_true_eq_false, if_false, run_readInts, run_readReals]
  cases h1 : ints bits p (n + 1) with
  | none => rfl
  | some P =>
    simp only [Option.bind_eq_bind, Option.bind_some]
    cases h2 : ints bits i (P.getLast?.getD 0) with
    | none => rfl
    | some I =>
      cases h3 : reals bits x (P.getLast?.getD 0) with
      | none => rfl
      | some X =>
        simp only [Option.bind_some, pure]
        cases lib.factor ⟨n, n, P, I, X⟩ with
        | none => rfl
        | some r => rfl

/-- the part of a matrix up to a column -/
def cut (S : Csc α) (n k : ℕ) : Option (Csc α) :=
  if k < n ∧ k < S.ncol then
    match S.indptr[k]? with
    | none => none
    | some z => some { S with ncol := k, indptr := S.indptr.take (k + 1), indices := S.indices.take (max 1 z), data := S.data.take (max 1 z) }
  else some S

/-- there is memory for the arrays, and the buffers copied are as long as the arrays -/
def fits (mem : PyObj → Bool) (n : ℕ) (S : Csc α) (perm : List ℕ) : Prop :=
  (mem .outIndices ∧ mem .outIndptr ∧ mem .outData ∧ mem .outPerm) ∧ S.ncol + 1 ≤ S.indptr.length ∧ S.indices.length ≤ S.data.length ∧ n ≤ perm.length

open Classical in
/-- what is returned, if nothing goes wrong -/
noncomputable def outcome (lib : Lib α) (bits : Bits α) (mem : PyObj → Bool) (n : ℕ) (p i x : Buf α) : Option (List ℕ × List ℕ × List α × ℕ × List ℕ) :=
  match load bits n p i x with
  | none => none
  | some A => match lib.factor A, lib.sparse A with
    | some (minor, perm), some S => match cut S n minor with
      | none => none
      | some S => if fits mem n S perm then some (S.indices, S.indptr.take (S.ncol + 1), S.data.take S.indices.length,
          if minor = n then 0 else minor + 1, perm.take n) else none
    | _, _ => none

theorem run_cut (S : Csc α) (n k : ℕ) (m : Mem) (h1 : m.live .common = true) (h2 : m.live .sparse = true) :
    (if k < n then trim (some S) k else pure (some S) : CM _) m = match cut S n k with
      | none => .ub
      | some S => .ok (some S) m := by
  unfold cut
  by_cases hk : k < n
  · by_cases hs : k < S.ncol
    · simp only [hk, hs, if_true, trim, run_bind, run_use, h1, h2, run_ite, ge_iff_le, not_le.mpr hs, if_false, and_self]
      have e : (S.indptr.take (k + 1))[k]? = S.indptr[k]? := by simp [List.getElem?_take]
      rw [e]
      cases S.indptr[k]? with
      | none => rfl
      | some z => rfl
    · simp only [hk, hs, if_true, trim, run_bind, run_use, h2, run_ite, ge_iff_le, not_lt.mp hs, and_false, if_false, run_pure]
  · simp only [hk, if_false, false_and, run_pure]

theorem run_copy (lib : Lib α) (bits : Bits α) (mem : PyObj → Bool) (n : ℕ) (p i x : Buf α) (nz : Option ℕ) :
    CMem.lcholC lib bits mem (some ⟨some (n, n), some p, some i, some x, nz⟩) Mem.empty =
      match nz, outcome lib bits mem n p i x with
      | some _, some r => .ok r released
      | _, _ => .ub := by
  unfold CMem.lcholC outcome
  simp only [run_bind, run_alloc, run_getAttr_some, run_deref_some, run_decref_some, run_held, refs_ref, refs_block, refs_empty, if_true, zero_add, zero_lt_one]
  have hz : ∃ m, getAttr .nnz nz (((((((Mem.empty.block Blk.common true).ref PyObj.shape 1).ref PyObj.shape (-1)).ref PyObj.indptr 1).ref
                PyObj.indices 1).ref PyObj.data 1)) = .ok nz m ∧ m.live .common = true ∧ (∀ v, nz = some v → m =
        ((((((Mem.empty.block Blk.common true).ref PyObj.shape 1).ref PyObj.shape (-1)).ref PyObj.indptr 1).ref
                PyObj.indices 1).ref PyObj.data 1).ref .nnz 1) ∧ (m.refs .indptr = 1 ∧ m.refs .indices = 1 ∧ m.refs .data = 1) ∧
        m.refs .outIndices = 0 ∧ m.refs .outIndptr = 0 ∧ m.refs .outData = 0 ∧ m.refs .outPerm = 0 := by
    cases nz with
    | none => exact ⟨_, rfl, rfl, by simp, ⟨rfl, rfl, rfl⟩, rfl, rfl, rfl, rfl⟩
    | some z => exact ⟨_, rfl, rfl, by simp, ⟨rfl, rfl, rfl⟩, rfl, rfl, rfl, rfl⟩
  obtain ⟨m, e, hm, hm', ⟨h1, h2, h3⟩, o1, o2, o3, o4⟩ := hz
  rw [e]
  simp only [h1, h2, h3, zero_lt_one, if_true]
  rw [run_analyze _ _ _ _ _ _ _ hm]
  cases load bits n p i x with
  | none => cases nz <;> rfl
  | some A =>
    dsimp only
    cases hf : lib.factor A with
    | none =>
      simp only [factorToSparse, run_bind, run_use, hm, if_true, run_pure, run_deref_none]
    | some mp =>
      obtain ⟨minor, perm⟩ := mp
      cases hs : lib.sparse A with
      | none =>
        simp only [factorToSparse, run_bind, run_use, live_block, hm, if_true, reduceCtorEq, if_false, hs, run_pure, run_deref_some]
        have : ∀ m', (if minor < n then trim (none : Option (Csc α)) minor else pure none : CM _) m' = .ok none m' := by
          intro m'; split <;> rfl
        rw [this]
        cases nz <;> rfl
      | some S =>
        simp only [factorToSparse, run_bind, run_use, live_block, hm, if_true, reduceCtorEq, if_false, hs, run_pure, run_deref_some, run_alloc]
        rw [run_cut _ _ _ _ (by simp [hm]) (by simp)]
        cases cut S n minor with
        | none => cases nz <;> rfl
        | some S =>
          dsimp only
          by_cases hfit : fits mem n S perm
          · rw [if_pos hfit]
            obtain ⟨⟨a1, a2, a3, a4⟩, b1, b2, b3⟩ := hfit
            simp only [run_deref_some, run_newArr, a1, a2, a3, a4, if_true, run_use, live_ref, live_block, reduceCtorEq, if_false, run_memcpy_some,
              lt_irrefl, not_lt.mpr b1, not_lt.mpr b2, not_lt.mpr b3, run_decref_some, refs_ref, refs_block, h1, h2, h3, o1, o2, o3, o4, zero_add, zero_lt_one]
            cases nz with
            | none => rfl
            | some z =>
              have h4 : m.refs .nnz = 1 := by rw [hm' z rfl]; rfl
              simp only [refs_ref, refs_block, h1, h2, h3, o1, o2, o3, o4, zero_add, zero_lt_one, h4, refs_hand, run_decref_some, run_free, run_use, live_ref, live_block, reduceCtorEq, if_false, hm, if_true, run_give, run_pure,
                List.take_length]
              congr 1
              rw [hm' z rfl]
              simp only [Mem.hand, Mem.ref, Mem.block, Mem.empty, released, Mem.mk.injEq]
              refine ⟨?_, ?_, rfl⟩
              · funext o; cases o <;> rfl
              · funext o; cases o <;> rfl
          · rw [if_neg hfit]
            have hnz : (match nz, (none : Option (List ℕ × List ℕ × List α × ℕ × List ℕ)) with
              | some _, some r => Res.ok r released
              | _, _ => Res.ub) = Res.ub := by cases nz <;> rfl
            rw [hnz]
            by_cases a1 : mem .outIndices
            · by_cases a2 : mem .outIndptr
              · by_cases a3 : mem .outData
                · by_cases a4 : mem .outPerm
                  · simp only [run_deref_some, run_newArr, a1, a2, a3, a4, if_true, run_use, live_ref, live_block, reduceCtorEq, if_false,
                      run_memcpy_some, lt_irrefl, refs_ref, refs_block, h1, h2, h3, o1, o2, o3, o4, zero_add, zero_lt_one]
                    by_cases b1 : S.ncol + 1 ≤ S.indptr.length
                    · by_cases b2 : S.indices.length ≤ S.data.length
                      · by_cases b3 : n ≤ perm.length
                        · exact absurd ⟨⟨a1, a2, a3, a4⟩, b1, b2, b3⟩ hfit
                        · simp [not_le.mp b3, not_lt.mpr b1, not_lt.mpr b2, h1, h2, h3, o1, o2, o3, o4]
                      · simp [not_lt.mpr b1, not_le.mp b2, h1, h2, h3, o1, o2, o3, o4]
                    · simp [not_le.mp b1, h1, h2, h3, o1, o2, o3, o4]
                  · by_cases b1 : S.indptr.length < S.ncol + 1 <;> by_cases b2 : S.data.length < S.indices.length <;> simp [a1, a2, a3, a4, b1, b2, h1, h2, h3, o1, o2, o3, o4]
                · by_cases a4 : mem .outPerm <;> by_cases b1 : S.indptr.length < S.ncol + 1 <;> simp [a1, a2, a3, a4, b1, h1, h2, h3, o1, o2, o3, o4]
              · by_cases a3 : mem .outData <;> by_cases a4 : mem .outPerm <;> simp [a1, a2, a3, a4, h1, h2, h3, o1, o2, o3, o4]
            · by_cases a2 : mem .outIndptr <;> by_cases a3 : mem .outData <;> by_cases a4 : mem .outPerm <;> simp [a1, a2, a3, a4, h1, h2, h3, o1, o2, o3, o4]

/-- at least one attribute is missing -/
def Missing (a : SpArg α) : Prop := a.shape = none ∨ a.indptr = none ∨ a.indices = none ∨ a.data = none ∨ a.nnz = none

theorem run_not_square (lib : Lib α) (bits : Bits α) (mem : PyObj → Bool) {k l : ℕ} (hkl : k ≠ l) (p i x : Buf α) (nz : Option ℕ) :
    CMem.lcholC lib bits mem (some ⟨some (k, l), some p, some i, some x, nz⟩) Mem.empty = .ub := by
  unfold CMem.lcholC analyze factorToSparse
  cases nz <;> simp only [run_bind, run_alloc, run_getAttr_none, run_getAttr_some, run_deref_some, run_deref_none, run_decref_some, run_use,
    run_held, refs_ref, refs_block, refs_empty, reduceCtorEq, if_false, zero_add, zero_lt_one, live_ref, live_block, if_true, run_ite, ne_eq, hkl, not_false_eq_true, run_pure]

theorem run_missing (lib : Lib α) (bits : Bits α) (mem : PyObj → Bool) (a : SpArg α) (h : Missing a) :
    CMem.lcholC lib bits mem (some a) Mem.empty = .ub := by
  obtain ⟨sh, ip, ix, da, nz⟩ := a
  cases sh with
  | none => unfold CMem.lcholC; simp only [run_bind, run_alloc, run_getAttr_none, run_getAttr_some, run_deref_some, run_deref_none, run_decref_some, run_held, refs_ref, refs_block, refs_empty, reduceCtorEq, if_true, if_false, zero_add, zero_lt_one]
  | some sh =>
    obtain ⟨k, l⟩ := sh
    cases ip with
    | none => unfold CMem.lcholC; cases ix <;> cases da <;> cases nz <;> simp only [run_bind, run_alloc, run_getAttr_none, run_getAttr_some, run_deref_some, run_deref_none, run_decref_some, run_held, refs_ref, refs_block, refs_empty, reduceCtorEq, if_true, if_false, zero_add, zero_lt_one]
    | some ip =>
      cases ix with
      | none => unfold CMem.lcholC; cases da <;> cases nz <;> simp only [run_bind, run_alloc, run_getAttr_none, run_getAttr_some, run_deref_some, run_deref_none, run_decref_some, run_held, refs_ref, refs_block, refs_empty, reduceCtorEq, if_true, if_false, zero_add, zero_lt_one]
      | some ix =>
        cases da with
        | none => unfold CMem.lcholC; cases nz <;> simp only [run_bind, run_alloc, run_getAttr_none, run_getAttr_some, run_deref_some, run_deref_none, run_decref_some, run_held, refs_ref, refs_block, refs_empty, reduceCtorEq, if_true, if_false, zero_add, zero_lt_one]
        | some da =>
          cases nz with
          | some z => simp [Missing] at h
          | none =>
            by_cases hkl : k = l
            · subst hkl; rw [run_copy]
            · exact run_not_square lib bits mem hkl _ _ _ _

/-- CHOLMOD has the memory it needs: it returns a factor of every well formed matrix -/
structure LibOk (lib : Lib ℝ) (minor : Csc ℝ → ℕ) (perm : Csc ℝ → List ℕ) (L : Csc ℝ → Csc ℝ) : Prop where
  factor : ∀ n A, CscValid n A → lib.factor A = some (minor A, perm A)
  sparse : ∀ n A, CscValid n A → lib.sparse A = some (L A)
  minor : ∀ n A, CscValid n A → minor A ≤ n
  perm : ∀ n A, CscValid n A → (perm A).length = n
  valid : ∀ n A, CscValid n A → CscValid n (L A)

theorem seen_valid {n : ℕ} {A : Csc ℝ} (h : CscValid n A) : CscValid n (seen n A.indptr A.indices A.data) := by
  have hl : ∀ p ∈ A.indptr, p ≤ A.indptr.getLast?.getD 0 := by
    intro p hp
    obtain ⟨l, hl⟩ := List.eq_nil_or_concat A.indptr |>.resolve_left (List.ne_nil_of_mem hp)
    obtain ⟨b, hl⟩ := hl
    rw [hl] at hp ⊢
    have hs := h.sorted
    rw [hl] at hs
    simp only [List.concat_eq_append, List.mem_append, List.mem_singleton, List.getLast?_append, List.getLast?_singleton, Option.some_or,
      Option.getD_some, List.pairwise_append] at hp hs ⊢
    rcases hp with hp | rfl
    · exact hs.2.2 p hp b (by simp)
    · exact le_refl _
  have hz : A.indptr.getLast?.getD 0 ≤ A.indices.length := by
    cases hc : A.indptr.getLast? with
    | none => simp
    | some z => exact h.last z (List.mem_of_getLast? hc)
  constructor
  · rfl
  · rfl
  · exact h.indptr
  · exact h.first
  · exact h.sorted
  · simp [seen, h.data]
  · intro p hp
    simp only [seen, List.length_take]
    exact le_min (hl p hp) ((hl p hp).trans hz)
  · intro i hi
    exact h.bounds i (List.mem_of_mem_take hi)

theorem load_valid (bits : Bits ℝ) {n : ℕ} {A : Csc ℝ} (h : CscValid n A) :
    load bits n (.ints 8 A.indptr) (.ints 8 A.indices) (.reals 8 A.data) = some (seen n A.indptr A.indices A.data) := by
  have hz : A.indptr.getLast?.getD 0 ≤ A.indices.length := by
    cases hc : A.indptr.getLast? with
    | none => simp
    | some z => exact h.last z (List.mem_of_getLast? hc)
  have h1 := h.indptr
  have h2 := h.data
  have e1 : ints bits (.ints 8 A.indptr) (n + 1) = some A.indptr := by
    unfold ints
    rw [if_neg (by simp [Buf.bytes, h1])]
    rw [← h1]; simp
  have e2 : ints bits (.ints 8 A.indices) (A.indptr.getLast?.getD 0) = some (A.indices.take (A.indptr.getLast?.getD 0)) := by
    unfold ints
    rw [if_neg (by simp only [Buf.bytes]; omega)]
    rfl
  have e3 : reals bits (.reals 8 A.data) (A.indptr.getLast?.getD 0) = some (A.data.take (A.indptr.getLast?.getD 0)) := by
    unfold reals
    rw [if_neg (by simp only [Buf.bytes]; omega)]
    rfl
  unfold load
  rw [e1]
  simp only [Option.bind_eq_bind, Option.bind_some, e2, e3]
  rfl

end LM
open LM

variable {α : Type}

/-- **C98.** Whenever `lchol_c` returns a value, whatever the argument and the library did, no reference is held any more, no memory of
CHOLMOD is in use, and the references to the four new arrays, and no others, have gone to the caller. -/
theorem C98_released (lib : Lib α) (bits : Bits α) (mem : PyObj → Bool) (args : Option (SpArg α)) (r) (m : Mem)
    (h : CMem.lcholC lib bits mem args Mem.empty = .ok r m) : m = released := by
  cases args with
  | none => cases h
  | some a =>
    by_cases hm : Missing a
    · rw [run_missing lib bits mem a hm] at h; cases h
    · obtain ⟨sh, ip, ix, da, nz⟩ := a
      simp only [Missing, not_or, ← ne_eq, Option.ne_none_iff_exists'] at hm
      obtain ⟨⟨⟨k, l⟩, rfl⟩, ⟨p, rfl⟩, ⟨i, rfl⟩, ⟨x, rfl⟩, ⟨z, rfl⟩⟩ := hm
      by_cases hkl : k = l
      · subst hkl
        rw [run_copy] at h
        cases ho : outcome lib bits mem k p i x with
        | none => rw [ho] at h; cases h
        | some r => rw [ho] at h; cases h; rfl
      · rw [run_not_square lib bits mem hkl] at h; cases h

/-- **C98.** An exception is raised exactly if the call did not have one argument, and then the workspace of CHOLMOD, which has been set up
before the arguments are looked at, is never freed. -/
theorem C98_leak (lib : Lib α) (bits : Bits α) (mem : PyObj → Bool) (args : Option (SpArg α)) :
    ((∃ m, CMem.lcholC lib bits mem args Mem.empty = .null m) ↔ args = none) ∧
    ∀ m, CMem.lcholC lib bits mem args Mem.empty = .null m → m.live .common = true ∧ m.live .factor = false ∧ m.live .sparse = false ∧
      (∀ o, m.refs o = 0) := by
  have key : ∀ m, CMem.lcholC lib bits mem args Mem.empty = .null m → args = none := by
    intro m h
    cases args with
    | none => rfl
    | some a =>
      by_cases hm : Missing a
      · rw [run_missing lib bits mem a hm] at h; cases h
      · obtain ⟨sh, ip, ix, da, nz⟩ := a
        simp only [Missing, not_or, ← ne_eq, Option.ne_none_iff_exists'] at hm
        obtain ⟨⟨⟨k, l⟩, rfl⟩, ⟨p, rfl⟩, ⟨i, rfl⟩, ⟨x, rfl⟩, ⟨z, rfl⟩⟩ := hm
        by_cases hkl : k = l
        · subst hkl
          rw [run_copy] at h
          cases ho : outcome lib bits mem k p i x with
          | none => rw [ho] at h; cases h
          | some r => rw [ho] at h; cases h
        · rw [run_not_square lib bits mem hkl] at h; cases h
  refine ⟨⟨fun ⟨m, h⟩ => key m h, ?_⟩, ?_⟩
  · rintro rfl
    exact ⟨_, rfl⟩
  · intro m h
    obtain rfl := key m h
    cases h
    exact ⟨rfl, rfl, rfl, fun _ => rfl⟩

/-- **C98.** Null pointers are not checked for.  The behaviour is undefined if an attribute is missing, if the matrix is not square, if
CHOLMOD fails to factorize or to convert the factor, or if there is no memory for one of the arrays to be returned. -/
theorem C98_unchecked (lib : Lib α) (bits : Bits α) (mem : PyObj → Bool) :
    (∀ a, Missing a → CMem.lcholC lib bits mem (some a) Mem.empty = .ub) ∧
    (∀ k l, k ≠ l → ∀ p i x nz, CMem.lcholC lib bits mem (some ⟨some (k, l), p, i, x, nz⟩) Mem.empty = .ub) ∧
    ((∀ A, lib.factor A = none) → ∀ a, CMem.lcholC lib bits mem (some a) Mem.empty = .ub) ∧
    ((∀ A, lib.sparse A = none) → ∀ a, CMem.lcholC lib bits mem (some a) Mem.empty = .ub) ∧
    ((mem .outIndices = false ∨ mem .outIndptr = false ∨ mem .outData = false ∨ mem .outPerm = false) →
      ∀ a, CMem.lcholC lib bits mem (some a) Mem.empty = .ub) := by
  have sq : ∀ k l, k ≠ l → ∀ p i x nz, CMem.lcholC lib bits mem (some ⟨some (k, l), p, i, x, nz⟩) Mem.empty = .ub := by
    intro k l hkl p i x nz
    by_cases hm : Missing (⟨some (k, l), p, i, x, nz⟩ : SpArg α)
    · exact run_missing lib bits mem _ hm
    · simp only [Missing, not_or, ← ne_eq, Option.ne_none_iff_exists'] at hm
      obtain ⟨-, ⟨p, rfl⟩, ⟨i, rfl⟩, ⟨x, rfl⟩, ⟨z, rfl⟩⟩ := hm
      exact run_not_square lib bits mem hkl _ _ _ _
  have all : (∀ n p i x, outcome lib bits mem n p i x = none) → ∀ a, CMem.lcholC lib bits mem (some a) Mem.empty = .ub := by
    intro ho a
    by_cases hm : Missing a
    · exact run_missing lib bits mem a hm
    · obtain ⟨sh, ip, ix, da, nz⟩ := a
      simp only [Missing, not_or, ← ne_eq, Option.ne_none_iff_exists'] at hm
      obtain ⟨⟨⟨k, l⟩, rfl⟩, ⟨p, rfl⟩, ⟨i, rfl⟩, ⟨x, rfl⟩, ⟨z, rfl⟩⟩ := hm
      by_cases hkl : k = l
      · subst hkl
        rw [run_copy, ho]
      · exact sq k l hkl _ _ _ _
  refine ⟨fun a h => run_missing lib bits mem a h, sq, fun h => all fun n p i x => ?_, fun h => all fun n p i x => ?_, fun h => all fun n p i x => ?_⟩
  · unfold outcome
    cases load bits n p i x with
    | none => rfl
    | some A => simp [h]
  · unfold outcome
    cases load bits n p i x with
    | none => rfl
    | some A => simp [h]
  · unfold outcome
    cases load bits n p i x with
    | none => rfl
    | some A =>
      dsimp only
      cases lib.factor A with
      | none => rfl
      | some mp =>
        cases lib.sparse A with
        | none => rfl
        | some S =>
          dsimp only
          cases cut S n mp.1 with
          | none => rfl
          | some S =>
            dsimp only
            rw [if_neg]
            rintro ⟨⟨a1, a2, a3, a4⟩, -⟩
            rw [a1, a2, a3, a4] at h
            simp at h

/-- **C98.** Called by `lchol` with a well formed matrix of doubles, whose index arrays may have any width, `lchol_c` stays within all
buffers, never follows a null pointer, uses no object or block after giving it up, and returns what the functional model of it says (C63) about the matrix without unused entries, if the
matrix is positive definite or the factorization fails at a column before which the factor has an entry. -/
theorem C98_safe (lib : Lib ℝ) (bits : Bits ℝ) {minor perm L} (hlib : LibOk lib minor perm L) {n : ℕ} {A : Csc ℝ} (hA : CscValid n A)
    (si sp nnz : ℕ) : let A' := seen n A.indptr A.indices A.data
    ∃ a r, CMem.a64 ⟨some (n, n), some (.ints sp A.indptr), some (.ints si A.indices), some (.reals 8 A.data), some nnz⟩ = .ok a ∧
      CMem.lcholC lib bits enough (some a) Mem.empty = .ok r released ∧
      (minor A' = n ∨ 0 < (L A').indptr.getD (minor A') 0 → r = lcholC (fun A => ⟨L A, minor A, perm A⟩) A') ∧
      (r.2.1 = (L A').indptr.take (minor A' + 1) ∧ r.2.2.2.1 = (if minor A' = n then 0 else minor A' + 1) ∧ r.2.2.2.2 = perm A') := by
  intro A'
  have hv : CscValid n A' := seen_valid hA
  have hL := hlib.valid n A' hv
  have hm := hlib.minor n A' hv
  have hp := hlib.perm n A' hv
  have hf' := hlib.factor n A' hv
  have hs' := hlib.sparse n A' hv
  have hload : load bits n (.ints 8 A.indptr) (.ints 8 A.indices) (.reals 8 A.data) = some A' := load_valid bits hA
  have hn : A'.ncol = n := rfl
  clear_value A'
  have hc : ∃ S, cut (L A') n (minor A') = some S ∧ fits enough n S (perm A') ∧ S.indptr.take (S.ncol + 1) = (L A').indptr.take (minor A' + 1) ∧
      (minor A' = n ∨ 0 < (L A').indptr.getD (minor A') 0 →
        (S.indices, S.indptr.take (S.ncol + 1), S.data.take S.indices.length) = (if minor A' < n then
          let T := sputilTrim (L A') (minor A'); (T.indices, T.indptr, T.data) else ((L A').indices, (L A').indptr, (L A').data))) := by
    have l1 := hL.indptr
    have l2 := hL.data
    have l3 := hL.ncol
    generalize L A' = T at *
    generalize minor A' = k at *
    rcases hm.lt_or_eq with hk | hk
    · have hz : T.indptr[k]? = some (T.indptr[k]'(by omega)) := List.getElem?_eq_getElem _
      generalize T.indptr[k]'(by omega) = z at hz
      unfold cut
      rw [if_pos ⟨hk, by omega⟩, hz]
      refine ⟨_, rfl, ⟨⟨rfl, rfl, rfl, rfl⟩, ?_, ?_, by omega⟩, ?_, ?_⟩
      · simp; omega
      · simp [l2]
      · simp
      · intro h
        have h0 : 0 < z := by
          rcases h with h | h
          · omega
          · rwa [List.getD_eq_getElem?_getD, hz] at h
        have h1 : max 1 z = z := by omega
        rw [if_pos hk]
        unfold sputilTrim
        rw [if_neg (by omega)]
        have e : (T.indptr.take (k + 1))[k]? = some z := by rw [← hz]; simp
        simp only [e, h1]
        simp [List.take_take, l2]
    · unfold cut
      rw [if_neg (by omega)]
      refine ⟨_, rfl, ⟨⟨rfl, rfl, rfl, rfl⟩, by omega, by omega, by omega⟩, by rw [l3, hk], ?_⟩
      intro _
      rw [if_neg (by omega), l3, ← l1, ← l2]
      simp
  obtain ⟨S, hS, hf, h1, h2⟩ := hc
  refine ⟨_, (S.indices, S.indptr.take (S.ncol + 1), S.data.take S.indices.length, if minor A' = n then 0 else minor A' + 1, (perm A').take n),
    rfl, ?_, ?_, ?_⟩
  · show CMem.lcholC lib bits enough (some ⟨some (n, n), some (.ints 8 A.indptr), some (.ints 8 A.indices), some (.reals 8 A.data), some nnz⟩) Mem.empty = _
    rw [run_copy]
    unfold outcome
    rw [hload]
    dsimp only
    rw [hf', hs']
    dsimp only
    rw [hS]
    dsimp only
    rw [if_pos hf]
  · intro h
    have h2 := h2 h
    unfold lcholC
    dsimp only
    rw [hn]
    rw [List.take_of_length_le (by omega : (perm A').length ≤ n)]
    by_cases hk : minor A' < n
    · rw [if_pos hk] at h2 ⊢
      simp only [Prod.mk.injEq] at h2 ⊢
      simpa using h2
    · rw [if_neg hk] at h2 ⊢
      simp only [Prod.mk.injEq] at h2 ⊢
      simpa using h2
  · exact ⟨h1, rfl, List.take_of_length_le (by omega)⟩

/-- **C98.** Only the index arrays are converted: for single precision or other data of fewer than eight bytes, CHOLMOD is handed a buffer
shorter than the matrix needs, whatever the (non-empty) matrix.  Called directly with 32-bit index arrays, `lchol_c` does the same. -/
theorem C98_narrow (lib : Lib ℝ) (bits : Bits ℝ) (mem : PyObj → Bool) {n : ℕ} {A : Csc ℝ} (hA : CscValid n A) (s : ℕ) (hs : s < 8) :
    (∀ si sp nnz a, A.data.length ≤ A.indptr.getLast?.getD 0 → A.data ≠ [] →
      CMem.a64 ⟨some (n, n), some (.ints sp A.indptr), some (.ints si A.indices), some (.reals s A.data), some nnz⟩ = .ok a →
      CMem.lcholC lib bits mem (some a) Mem.empty = .ub) ∧
    (∀ i x nnz, CMem.lcholC lib bits mem (some ⟨some (n, n), some (.ints s A.indptr), some i, some x, some nnz⟩) Mem.empty = .ub) := by
  have l1 := hA.indptr
  constructor
  · intro si sp nnz a hd hne ha
    cases ha
    show CMem.lcholC lib bits mem (some ⟨some (n, n), some (.ints 8 A.indptr), some (.ints 8 A.indices), some (.reals s A.data), some nnz⟩) Mem.empty = _
    rw [run_copy]
    have hz : A.indptr.getLast?.getD 0 ≤ A.indices.length := by
      cases hc : A.indptr.getLast? with
      | none => simp
      | some z => exact hA.last z (List.mem_of_getLast? hc)
    have e1 : ints bits (.ints 8 A.indptr) (n + 1) = some A.indptr := by
      unfold ints
      rw [if_neg (by simp [Buf.bytes, l1])]
      rw [← l1]; simp
    have e3 : reals bits (.reals s A.data) (A.indptr.getLast?.getD 0) = none := by
      unfold reals
      have : 0 < A.data.length := List.length_pos_iff.mpr hne
      rw [if_pos]
      simp only [Buf.bytes]
      calc s * A.data.length < 8 * A.data.length := by nlinarith
        _ ≤ _ := by omega
    have hl : load bits n (.ints 8 A.indptr) (.ints 8 A.indices) (.reals s A.data) = none := by
      unfold load
      rw [e1]
      simp only [Option.bind_eq_bind, Option.bind_some, e3]
      cases ints bits (.ints 8 A.indices) (A.indptr.getLast?.getD 0) <;> rfl
    unfold outcome
    rw [hl]
  · intro i x nnz
    rw [run_copy]
    have hl : load bits n (.ints s A.indptr) i x = none := by
      unfold load
      have : ints bits (.ints s A.indptr : Buf ℝ) (n + 1) = none := by
        unfold ints
        rw [if_pos]
        simp only [Buf.bytes, l1]
        nlinarith
      rw [this]; rfl
    unfold outcome
    rw [hl]

/-- **C98.** Data of another type with enough bytes, such as integers, are not converted either: their bits are taken for doubles. -/
theorem C98_bits (lib : Lib α) (bits : Bits α) (mem : PyObj → Bool) (n : ℕ) (P : List ℕ) (hP : P.length = n + 1) (i : Buf α) (l : List ℕ) (nnz : Option ℕ)
    (hl : l.length = P.getLast?.getD 0) (hb : (bits.toReals (.ints 8 l) l.length).length = l.length) :
    CMem.lcholC lib bits mem (some ⟨some (n, n), some (.ints 8 P), some i, some (.ints 8 l), nnz⟩) Mem.empty =
      CMem.lcholC lib bits mem (some ⟨some (n, n), some (.ints 8 P), some i, some (.reals 8 (bits.toReals (.ints 8 l) l.length)), nnz⟩) Mem.empty := by
  rw [run_copy, run_copy]
  have e : load bits n (.ints 8 P) i (.ints 8 l) = load bits n (.ints 8 P) i (.reals 8 (bits.toReals (.ints 8 l) l.length)) := by
    unfold load
    have e1 : ints bits (.ints 8 P) (n + 1) = some P := by
      unfold ints
      rw [if_neg (by simp [Buf.bytes, hP])]
      rw [← hP]; simp
    rw [e1]
    simp only [Option.bind_eq_bind, Option.bind_some]
    have e2 : reals bits (.ints 8 l) (P.getLast?.getD 0) = reals bits (.reals 8 (bits.toReals (.ints 8 l) l.length)) (P.getLast?.getD 0) := by
      unfold reals
      simp only [Buf.bytes, hb, ← hl, lt_irrefl, if_false]
      rw [List.take_of_length_le (by rw [hb])]
    rw [e2]
  unfold outcome
  rw [e]

/-- the identity matrix of size two in 32-bit index arrays, with a library that meets the contract: everything is released -/
example : ∃ (lib : Lib ℝ) (minor : Csc ℝ → ℕ) (perm : Csc ℝ → List ℕ) (L : Csc ℝ → Csc ℝ), LibOk lib minor perm L ∧
    CscValid 2 ⟨2, 2, [0, 1, 2], [0, 1], [1, 1]⟩ :=
  ⟨⟨fun A => some (A.ncol, List.range A.ncol), fun A => some A⟩, fun A => A.ncol, fun A => List.range A.ncol, id,
    ⟨fun _ _ _ => rfl, fun _ _ _ => rfl, fun _ _ h => h.ncol.le, fun _ _ h => by simp [h.ncol], fun _ _ h => h⟩,
    ⟨rfl, rfl, rfl, rfl, by simp, rfl, by simp, by simp⟩⟩

end Blmath.Props
