import Verif.Model.EulerPath
import Verif.Spec.Graph
import Mathlib.Algebra.Order.BigOperators.Group.List
import Mathlib.Data.Finset.Card
import Mathlib.Algebra.Ring.Parity
import Mathlib.Tactic.Ring
import Mathlib.Tactic.Linarith

/-!
Correctness of `pop_euler_path`.
-/

namespace Blmath

namespace Dict
variable {κ ν : Type} [DecidableEq κ]

theorem keys_set_nodup (d : Dict κ ν) (k : κ) (v : ν) (h : d.keys.Nodup) :
    (d.set k v).keys.Nodup := by
  induction d with
  | nil => simp [set, keys]
  | cons a d ih =>
    obtain ⟨k', v'⟩ := a
    simp only [keys, List.map_cons, List.nodup_cons] at h
    by_cases hk : k' = k
    · subst hk; simpa [set, keys] using h
    · simp only [set, hk, if_false, keys, List.map_cons, List.nodup_cons]
      refine ⟨?_, ih h.2⟩
      intro hm
      have : k' ∈ keys (set d k v) := hm
      rw [mem_keys_iff, contains, get?_set_ne d v hk] at this
      exact h.1 ((mem_keys_iff d k').mpr this)

theorem get?_del (d : Dict κ ν) (k k' : κ) (h : d.keys.Nodup) :
    (d.del k).get? k' = if k' = k then none else d.get? k' := by
  induction d with
  | nil => simp [del]
  | cons a d ih =>
    obtain ⟨k₁, v₁⟩ := a
    simp only [keys, List.map_cons, List.nodup_cons] at h
    have hnone : get? d k₁ = none := by
      by_contra hc
      apply h.1
      exact (mem_keys_iff d k₁).mpr (Option.isSome_iff_ne_none.mpr hc)
    by_cases hk : k₁ = k
    · subst hk
      simp only [del, if_true]
      by_cases hk' : k' = k₁
      · subst hk'; simp [hnone]
      · rw [if_neg hk', get?_cons, if_neg (Ne.symm hk')]
    · simp only [del, hk, if_false, get?_cons, ih h.2]
      by_cases h1 : k₁ = k'
      · subst h1; simp [hk]
      · simp [h1]

theorem keys_del_nodup (d : Dict κ ν) (k : κ) (h : d.keys.Nodup) : (d.del k).keys.Nodup := by
  induction d with
  | nil => simp [del, keys]
  | cons a d ih =>
    obtain ⟨k', v'⟩ := a
    simp only [keys, List.map_cons, List.nodup_cons] at h
    by_cases hk : k' = k
    · simpa [del, hk, keys] using h.2
    · simp only [del, hk, if_false, keys, List.map_cons, List.nodup_cons]
      refine ⟨?_, ih h.2⟩
      intro hm
      have : k' ∈ keys (del d k) := hm
      rw [mem_keys_iff, contains, get?_del d k k' h.2, if_neg hk] at this
      exact h.1 ((mem_keys_iff d k').mpr this)

end Dict

namespace Geometry
open Graph

theorem adj_of_get? {d : Adj} {v : ℕ} {s : Finset ℕ} (h : d.get? v = some s) : adj d v = s := by
  simp [adj, h]

theorem adj_of_none {d : Adj} {v : ℕ} (h : d.get? v = none) : adj d v = ∅ := by
  simp [adj, h]

theorem get?_none_iff {d : Adj} (hg : ∀ v s, d.get? v = some s → s.Nonempty) (v : ℕ) :
    d.get? v = none ↔ adj d v = ∅ := by
  constructor
  · exact adj_of_none
  · intro h
    cases hs : d.get? v with
    | none => rfl
    | some s =>
      rw [adj_of_get? hs] at h
      exact absurd h (hg v s hs).ne_empty

theorem adj_set (d : Adj) (v : ℕ) (s : Finset ℕ) (w : ℕ) :
    adj (d.set v s) w = if w = v then s else adj d w := by
  unfold adj
  rw [Dict.get?_set]
  by_cases h : w = v <;> simp [h]

theorem adj_prune (d : Adj) (v w : ℕ) (h : d.keys.Nodup) : adj (prune d v) w = adj d w := by
  unfold prune
  split
  · rename_i s hs
    split
    · rename_i hc
      unfold adj
      rw [Dict.get?_del d v w h]
      by_cases hw : w = v
      · subst hw
        simp [hs, Finset.card_eq_zero.mp hc]
      · simp [hw]
    · rfl
  · rfl

theorem prune_nodup (d : Adj) (v : ℕ) (h : d.keys.Nodup) : (prune d v).keys.Nodup := by
  unfold prune
  split
  · split
    · exact Dict.keys_del_nodup d v h
    · exact h
  · exact h

/-- pruning `v` removes it if its set is empty and changes nothing else -/
theorem get?_prune (d : Adj) (v w : ℕ) (h : d.keys.Nodup) :
    (prune d v).get? w = if w = v ∧ d.get? v = some ∅ then none else d.get? w := by
  unfold prune
  split
  · rename_i s hs
    split
    · rename_i hc
      have : s = ∅ := Finset.card_eq_zero.mp hc
      subst this
      rw [Dict.get?_del d v w h, hs]
      by_cases hw : w = v <;> simp [hw]
    · rename_i hc
      have : s ≠ ∅ := fun h0 => hc (by simp [h0])
      rw [hs]; simp [this]
  · rename_i hs
    rw [hs]; simp

/-- One push of the main loop removes exactly the edge between `v` and `u`. -/
theorem step_spec {d : Adj} (hg : GoodGraph d) {v u : ℕ} {s : Finset ℕ} (hs : d.get? v = some s)
    (hu : u ∈ s) :
    GoodGraph (removeEdge (d.set v (s.erase u)) u v) ∧
    ∀ w, adj (removeEdge (d.set v (s.erase u)) u v) w =
      if w = v then (adj d v).erase u else if w = u then (adj d u).erase v else adj d w := by
  have hav : adj d v = s := adj_of_get? hs
  have hne : u ≠ v := by
    rintro rfl
    exact hg.loopless u (by rw [hav]; exact hu)
  have hvu : v ∈ adj d u := hg.symm v u (by rw [hav]; exact hu)
  obtain ⟨su, hsu⟩ : ∃ su, d.get? u = some su := by
    cases h : d.get? u with
    | none => rw [adj_of_none h] at hvu; simp at hvu
    | some su => exact ⟨su, rfl⟩
  have hau : adj d u = su := adj_of_get? hsu
  rw [hau] at hvu
  set d1 := d.set v (s.erase u) with hd1
  have n1 : d1.keys.Nodup := Dict.keys_set_nodup _ _ _ hg.nodup
  have g1u : d1.get? u = some su := by rw [hd1, Dict.get?_set_ne d _ hne]; exact hsu
  have e2 : dropFrom d1 u v = d1.set u (su.erase v) := by
    unfold dropFrom; rw [g1u]; simp [hvu]
  set d2 := d1.set u (su.erase v) with hd2
  have n2 : d2.keys.Nodup := Dict.keys_set_nodup _ _ _ n1
  have g2v : d2.get? v = some (s.erase u) := by
    rw [hd2, Dict.get?_set_ne d1 _ (Ne.symm hne), hd1, Dict.get?_set_same]
  have e3 : dropFrom d2 v u = d2 := by
    unfold dropFrom; rw [g2v]; simp
  have hadj2 : ∀ w, adj d2 w =
      if w = v then (adj d v).erase u else if w = u then (adj d u).erase v else adj d w := by
    intro w
    rw [hd2, adj_set, hd1, adj_set, hav, hau]
    by_cases h1 : w = u
    · subst h1; simp [hne]
    · by_cases h2 : w = v
      · simp [h2, Ne.symm hne]
      · simp [h1, h2]
  have hfin : removeEdge d1 u v = prune (prune d2 v) u := by
    unfold removeEdge; rw [e2, e3]
  have n3 := prune_nodup d2 v n2
  have hadj : ∀ w, adj (removeEdge d1 u v) w =
      if w = v then (adj d v).erase u else if w = u then (adj d u).erase v else adj d w := by
    intro w
    rw [hfin, adj_prune _ _ _ n3, adj_prune _ _ _ n2, hadj2]
  refine ⟨⟨?_, ?_, ?_, ?_⟩, hadj⟩
  · rw [hfin]; exact prune_nodup _ _ n3
  · intro w t ht
    rw [hfin, get?_prune _ _ _ n3, get?_prune _ _ _ n2, get?_prune _ _ _ n2] at ht
    by_contra hc
    have ht0 : t = ∅ := Finset.not_nonempty_iff_eq_empty.mp hc
    subst ht0
    have hu' : ¬ (u = v ∧ d2.get? v = some ∅) := fun h => hne h.1
    rw [if_neg hu'] at ht
    by_cases h1 : w = u ∧ d2.get? u = some ∅
    · rw [if_pos h1] at ht; exact absurd ht (by simp)
    · rw [if_neg h1] at ht
      by_cases h2 : w = v ∧ d2.get? v = some ∅
      · rw [if_pos h2] at ht; exact absurd ht (by simp)
      · rw [if_neg h2] at ht
        have h2' : w ≠ v := by
          intro h; subst h; exact h2 ⟨rfl, ht⟩
        have h1' : w ≠ u := by
          intro h; subst h; exact h1 ⟨rfl, ht⟩
        rw [hd2, Dict.get?_set_ne _ _ h1', hd1, Dict.get?_set_ne _ _ h2'] at ht
        exact absurd rfl (hg.nonempty w ∅ ht).ne_empty
  · intro a b hb
    rw [hadj] at hb ⊢
    by_cases ha : a = v
    · subst ha
      rw [if_pos rfl] at hb
      have hba := hg.symm _ _ (Finset.mem_of_mem_erase hb)
      have hbu : b ≠ u := Finset.ne_of_mem_erase hb
      have hbv : b ≠ a := by rintro rfl; exact hg.loopless b (Finset.mem_of_mem_erase hb)
      rw [if_neg hbv, if_neg hbu]; exact hba
    · rw [if_neg ha] at hb
      by_cases ha' : a = u
      · subst ha'
        rw [if_pos rfl] at hb
        have hba := hg.symm _ _ (Finset.mem_of_mem_erase hb)
        have hbv : b ≠ v := Finset.ne_of_mem_erase hb
        have hba' : b ≠ a := by rintro rfl; exact hg.loopless b (Finset.mem_of_mem_erase hb)
        rw [if_neg hbv, if_neg hba']; exact hba
      · rw [if_neg ha'] at hb
        have hba := hg.symm _ _ hb
        by_cases hb1 : b = v
        · subst hb1; rw [if_pos rfl, Finset.mem_erase]; exact ⟨ha', hba⟩
        · rw [if_neg hb1]
          by_cases hb2 : b = u
          · subst hb2; rw [if_pos rfl, Finset.mem_erase]; exact ⟨ha, hba⟩
          · rw [if_neg hb2]; exact hba
  · intro w hw
    rw [hadj] at hw
    split at hw
    · rename_i h; subst h; exact hg.loopless _ (Finset.mem_of_mem_erase hw)
    · split at hw
      · rename_i h; subst h; exact hg.loopless _ (Finset.mem_of_mem_erase hw)
      · exact hg.loopless _ hw

theorem entries_set (d : Adj) (v : ℕ) (s s' : Finset ℕ) (h : d.get? v = some s) :
    entries (d.set v s') + s.card = entries d + s'.card := by
  induction d with
  | nil => simp at h
  | cons a d ih =>
    obtain ⟨k, t⟩ := a
    rw [Dict.get?_cons] at h
    by_cases hk : k = v
    · rw [if_pos hk] at h
      injection h with h
      subst h
      simp only [entries, Dict.set, hk, if_true, List.map_cons, List.sum_cons]
      omega
    · rw [if_neg hk] at h
      have := ih h
      simp only [entries, Dict.set, hk, if_false, List.map_cons, List.sum_cons] at *
      omega

theorem entries_del (d : Adj) (v : ℕ) (h : d.get? v = some ∅) : entries (d.del v) = entries d := by
  induction d with
  | nil => simp at h
  | cons a d ih =>
    obtain ⟨k, t⟩ := a
    rw [Dict.get?_cons] at h
    by_cases hk : k = v
    · rw [if_pos hk] at h
      injection h with h
      subst h
      simp [entries, Dict.del, hk]
    · rw [if_neg hk] at h
      have := ih h
      simp only [entries, Dict.del, hk, if_false, List.map_cons, List.sum_cons] at *
      omega

theorem entries_prune (d : Adj) (v : ℕ) : entries (prune d v) = entries d := by
  unfold prune
  split
  · rename_i s hs
    split
    · rename_i hc
      rw [Finset.card_eq_zero.mp hc] at hs
      exact entries_del d v hs
    · rfl
  · rfl

/-- one push removes one edge, that is two entries -/
theorem step_entries {d : Adj} (hg : GoodGraph d) {v u : ℕ} {s : Finset ℕ} (hs : d.get? v = some s)
    (hu : u ∈ s) : entries (removeEdge (d.set v (s.erase u)) u v) + 2 = entries d := by
  have hav : adj d v = s := adj_of_get? hs
  have hne : u ≠ v := by
    rintro rfl
    exact hg.loopless u (by rw [hav]; exact hu)
  have hvu : v ∈ adj d u := hg.symm v u (by rw [hav]; exact hu)
  obtain ⟨su, hsu⟩ : ∃ su, d.get? u = some su := by
    cases h : d.get? u with
    | none => rw [adj_of_none h] at hvu; simp at hvu
    | some su => exact ⟨su, rfl⟩
  rw [adj_of_get? hsu] at hvu
  have g1u : (d.set v (s.erase u)).get? u = some su := by rw [Dict.get?_set_ne d _ hne]; exact hsu
  have e2 : dropFrom (d.set v (s.erase u)) u v = (d.set v (s.erase u)).set u (su.erase v) := by
    unfold dropFrom; rw [g1u]; simp [hvu]
  have g2v : ((d.set v (s.erase u)).set u (su.erase v)).get? v = some (s.erase u) := by
    rw [Dict.get?_set_ne _ _ (Ne.symm hne), Dict.get?_set_same]
  have e3 : dropFrom ((d.set v (s.erase u)).set u (su.erase v)) v u =
      (d.set v (s.erase u)).set u (su.erase v) := by
    unfold dropFrom; rw [g2v]; simp
  unfold removeEdge
  rw [e2, e3, entries_prune, entries_prune]
  have h1 := entries_set _ u su (su.erase v) g1u
  have h2 := entries_set d v s (s.erase u) hs
  have h3 := Finset.card_erase_add_one hu
  have h4 := Finset.card_erase_add_one hvu
  omega

/-! ### walks -/

/-- number of edge ends of the walk `l` at `v` -/
def ends (v : ℕ) : List ℕ → ℕ
  | x :: y :: l => (if x = v then 1 else 0) + (if y = v then 1 else 0) + ends v (y :: l)
  | _ => 0

theorem isEdge_comm (a b x y : ℕ) : isEdge a b x y = isEdge a b y x := by
  unfold isEdge
  congr 1
  rw [eq_iff_iff]
  constructor <;> rintro (⟨h1, h2⟩ | ⟨h1, h2⟩)
  · exact Or.inr ⟨h2, h1⟩
  · exact Or.inl ⟨h2, h1⟩
  · exact Or.inr ⟨h2, h1⟩
  · exact Or.inl ⟨h2, h1⟩

theorem uses_mem {a b : ℕ} {l : List ℕ} (h : uses a b l ≠ 0) : a ∈ l ∧ b ∈ l := by
  induction l with
  | nil => simp [uses] at h
  | cons x l ih =>
    cases l with
    | nil => simp [uses] at h
    | cons y l =>
      simp only [uses] at h
      by_cases h2 : uses a b (y :: l) = 0
      · rw [h2, add_zero] at h
        unfold isEdge at h
        split at h
        · rename_i hc
          rcases hc with ⟨rfl, rfl⟩ | ⟨rfl, rfl⟩ <;> simp
        · simp at h
      · have := ih h2
        exact ⟨List.mem_cons_of_mem _ this.1, List.mem_cons_of_mem _ this.2⟩

/-- each interior visit uses two edge ends, the two ends of the walk one each -/
theorem ends_count (v : ℕ) (l : List ℕ) (a b : ℕ) (hh : l.head? = some a)
    (hl : l.getLast? = some b) :
    ends v l + (if a = v then 1 else 0) + (if b = v then 1 else 0) = 2 * l.count v := by
  induction l generalizing a with
  | nil => simp at hh
  | cons x l ih =>
    simp only [List.head?_cons, Option.some.injEq] at hh
    subst hh
    cases l with
    | nil =>
      simp only [List.getLast?_singleton, Option.some.injEq] at hl
      subst hl
      by_cases h : x = v <;> simp [ends, h]
    | cons y l =>
      have := ih y rfl (by simpa using hl)
      simp only [ends]
      rw [List.count_cons]
      by_cases h : x = v
      · simp only [h, if_true, beq_self_eq_true]; omega
      · have hb : (x == v) = false := by simpa using h
        simp only [h, if_false, hb, Bool.false_eq_true]; omega

/-! ### The main invariant -/

/-- exactly one of the two -/
def OneOf (p q : Prop) : Prop := (p ∧ ¬ q) ∨ (¬ p ∧ q)

/-- What a run has achieved: started at `s`, the first appended vertex is `t0` and the last `s`;
every edge is either still there or used exactly once by the path; all visited vertices are used up;
and they lie in `C`. -/
structure EulerDone (G : ℕ → Finset ℕ) (C : ℕ → Prop) (s t0 : ℕ) (path : List ℕ) (d : Adj) :
    Prop where
  good : GoodGraph d
  newest : path.head? = some s
  oldest : path.getLast? = some t0
  edges : ∀ a b, ind G a b = ind (adj d) a b + uses a b path
  degrees : ∀ v, (G v).card = (adj d v).card + ends v path
  isolated : ∀ v ∈ path, adj d v = ∅
  inside : ∀ v ∈ path, C v

/-- The loop invariant while the stack is not empty. -/
structure EulerInv (G : ℕ → Finset ℕ) (C : ℕ → Prop) (s t0 x : ℕ) (rest path : List ℕ) (d : Adj)
    (t : ℕ) : Prop where
  good : GoodGraph d
  bottom : (x :: rest).getLast? = some s
  target : (path = [] ∧ t = t0) ∨ path.getLast? = some t0
  edges : ∀ a b, ind G a b = ind (adj d) a b + uses a b (x :: rest) + uses a b (t :: path)
  degrees : ∀ v, (G v).card = (adj d v).card + ends v (x :: rest) + ends v (t :: path)
  parity : ∀ v, C v → (Odd (adj d v).card ↔ OneOf (v = x) (v = t))
  isolated : ∀ v ∈ path, adj d v = ∅
  inside : ∀ v ∈ x :: rest, C v
  insidePath : ∀ v ∈ path, C v

theorem ind_erase {d : Adj} (hg : GoodGraph d) {v u : ℕ} (hu : u ∈ adj d v) {d' : Adj}
    (h : ∀ w, adj d' w =
      if w = v then (adj d v).erase u else if w = u then (adj d u).erase v else adj d w) (a b : ℕ) :
    ind (adj d) a b = ind (adj d') a b + isEdge a b u v := by
  have hne : u ≠ v := by rintro rfl; exact hg.loopless u hu
  have hvu : v ∈ adj d u := hg.symm _ _ hu
  unfold ind isEdge
  rw [h a]
  by_cases hav : a = v
  · subst hav
    rw [if_pos rfl]; simp only [Finset.mem_erase]
    by_cases hbu : b = u
    · subst hbu; simp [hu]
    · simp [hne, hbu, Ne.symm hbu]
  · rw [if_neg hav]
    by_cases hau : a = u
    · subst hau
      rw [if_pos rfl]; simp only [Finset.mem_erase]
      by_cases hbv : b = v
      · subst hbv; simp [hvu]
      · simp [hbv, Ne.symm hbv, Ne.symm hav]
    · rw [if_neg hau]
      have h1 : ¬ (u = a ∧ v = b ∨ u = b ∧ v = a) := by
        rintro (⟨h1, _⟩ | ⟨_, h1⟩)
        · exact hau h1.symm
        · exact hav h1.symm
      rw [if_neg h1]; simp

theorem card_erase' {d : Adj} (hg : GoodGraph d) {v u : ℕ} (hu : u ∈ adj d v) {d' : Adj}
    (h : ∀ w, adj d' w =
      if w = v then (adj d v).erase u else if w = u then (adj d u).erase v else adj d w) (w : ℕ) :
    (adj d w).card = (adj d' w).card + ((if u = w then 1 else 0) + (if v = w then 1 else 0)) := by
  have hne : u ≠ v := by rintro rfl; exact hg.loopless u hu
  have hvu : v ∈ adj d u := hg.symm _ _ hu
  rw [h w]
  by_cases hw : w = v
  · subst hw
    have := Finset.card_erase_add_one hu
    simp [hne]; omega
  · rw [if_neg hw]
    by_cases hw' : w = u
    · subst hw'
      have := Finset.card_erase_add_one hvu
      simp [Ne.symm hne]; omega
    · rw [if_neg hw']
      simp [Ne.symm hw, Ne.symm hw']

theorem eulerLoop_correct (G : ℕ → Finset ℕ) (C : ℕ → Prop)
    (hC : ∀ a b, C a → b ∈ G a → C b) (s t0 : ℕ) (pk : Picker) :
    ∀ (n : ℕ) (k : ℕ) (x : ℕ) (rest path : List ℕ) (d : Adj) (t : ℕ),
      2 * entries d + (x :: rest).length ≤ n → EulerInv G C s t0 x rest path d t →
      ∃ p d', eulerLoop pk k (x :: rest) path d = .ok (p, d') ∧ EulerDone G C s t0 p d' := by
  intro n
  induction n with
  | zero => intro k x rest path d t hn; simp at hn
  | succ n ih =>
    intro k x rest path d t hn inv
    rw [eulerLoop]
    split
    · -- push
      rename_i s' hs'
      have hne : s'.Nonempty := inv.good.nonempty x s' hs'
      rw [dif_pos hne]
      have hu : pk.pick k s' ∈ s' := pk.mem k s' hne
      set u := pk.pick k s' with hudef
      have hax : adj d x = s' := adj_of_get? hs'
      have hux : u ∈ adj d x := by rw [hax]; exact hu
      obtain ⟨hgood, hadj⟩ := step_spec inv.good hs' hu
      have hmeas : entries (removeEdge (d.set x (s'.erase u)) u x) < entries d :=
        lt_of_le_of_lt (entries_removeEdge_le _ _ _)
          (entries_set_lt d x s' _ hs' (Finset.card_erase_lt_of_mem hu))
      simp only
      refine ih (k + 1) u (x :: rest) path _ t ?_ ?_
      · simp only [List.length_cons] at hn ⊢; omega
      have hCx : C x := inv.inside x (by simp)
      have hCu : C u := by
        apply hC x u hCx
        have h1 := inv.edges x u
        have h2 : ind (adj d) x u = 1 := by simp [ind, hux]
        by_contra hc
        have h3 : ind G x u = 0 := by simp [ind, hc]
        omega
      have hux_ne : u ≠ x := by rintro h; rw [h] at hux; exact inv.good.loopless x hux
      refine ⟨hgood, ?_, inv.target, ?_, ?_, ?_, ?_, ?_, inv.insidePath⟩
      · have := inv.bottom
        simpa using this
      · intro a b
        have h1 := inv.edges a b
        have h2 := ind_erase inv.good hux hadj a b
        simp only [uses]
        omega
      · intro v
        have h1 := inv.degrees v
        have h2 := card_erase' inv.good hux hadj v
        simp only [ends]
        omega
      · intro v hv
        have h1 := inv.parity v hv
        have h2 := card_erase' inv.good hux hadj v
        rw [h2] at h1
        by_cases hvu : u = v
        · subst hvu
          have hx : ¬ x = u := Ne.symm hux_ne
          simp only [if_true, hx, if_false, add_zero] at h1
          rw [Nat.odd_add_one] at h1
          rw [← not_iff_not, h1]
          unfold OneOf
          have hux' : ¬ u = x := hux_ne
          by_cases hut : u = t <;> simp [hut, hux']
          · exact hut ▸ hux_ne
        · by_cases hvx : x = v
          · subst hvx
            simp only [hvu, if_false, if_true, zero_add] at h1
            rw [Nat.odd_add_one] at h1
            rw [← not_iff_not, h1]
            unfold OneOf
            have : ¬ x = u := Ne.symm hux_ne
            by_cases hxt : x = t
            · subst hxt; simp [this]
            · simp [hxt, this]
          · simp only [hvu, hvx, if_false, add_zero] at h1
            rw [h1]
            unfold OneOf
            simp [Ne.symm hvu, Ne.symm hvx]
      · intro v hv
        have h1 := inv.isolated v hv
        rw [hadj]
        split
        · rename_i h; subst h; rw [h1]; simp
        · split
          · rename_i h; rw [h] at h1; rw [h1]; simp
          · exact h1
      · intro v hv
        rcases List.mem_cons.mp hv with rfl | hv
        · exact hCu
        · exact inv.inside v hv
    · -- pop
      rename_i hnone
      have hax : adj d x = ∅ := adj_of_none hnone
      have hCx : C x := inv.inside x (by simp)
      have hxt : x = t := by
        have h1 := inv.parity x hCx
        rw [hax] at h1
        by_contra hc
        have : OneOf (x = x) (x = t) := Or.inl ⟨rfl, hc⟩
        have := h1.mpr this
        simp at this
      subst hxt
      have hold : (x :: path).getLast? = some t0 := by
        rcases inv.target with ⟨h1, h2⟩ | h
        · subst h1; simp [h2]
        · cases path with
          | nil => simp at h
          | cons y p => simpa using h
      have hiso : ∀ v ∈ x :: path, adj d v = ∅ := by
        intro v hv
        rcases List.mem_cons.mp hv with rfl | hv
        · exact hax
        · exact inv.isolated v hv
      have hins : ∀ v ∈ x :: path, C v := by
        intro v hv
        rcases List.mem_cons.mp hv with rfl | hv
        · exact hCx
        · exact inv.insidePath v hv
      cases rest with
      | nil =>
        rw [eulerLoop]
        refine ⟨x :: path, d, rfl, inv.good, ?_, hold, ?_, ?_, hiso, hins⟩
        · simpa using inv.bottom
        · intro a b
          have := inv.edges a b
          simpa [uses] using this
        · intro v
          have := inv.degrees v
          simpa [ends] using this
      | cons y rest =>
        refine ih k y rest (x :: path) d y ?_ ?_
        · simp only [List.length_cons] at hn ⊢; omega
        refine ⟨inv.good, ?_, Or.inr hold, ?_, ?_, ?_, hiso, ?_, hins⟩
        · simpa using inv.bottom
        · intro a b
          have h1 := inv.edges a b
          have h2 := isEdge_comm a b x y
          simp only [uses] at h1 ⊢
          omega
        · intro v
          have h1 := inv.degrees v
          simp only [ends] at h1 ⊢
          omega
        · intro v hv
          rw [inv.parity v hv]
          unfold OneOf
          simp
        · intro v hv
          exact inv.inside v (List.mem_cons_of_mem _ hv)

/-- The loop on a graph whose odd vertices in the component of `s` are exactly `s` and `t` (none if
`s = t`). -/
theorem euler_from (d : Adj) (hg : GoodGraph d) (s t : ℕ)
    (hp : ∀ v, Reach (adj d) s v → (Odd (adj d v).card ↔ OneOf (v = s) (v = t))) (pk : Picker)
    (k : ℕ) :
    ∃ p d', eulerLoop pk k [s] [] d = .ok (p, d') ∧
      EulerDone (adj d) (Reach (adj d) s) s t p d' := by
  refine eulerLoop_correct (adj d) (Reach (adj d) s) (fun a b ha hb => ha.tail hb) s t pk _ k s [] []
    d t le_rfl ?_
  refine ⟨hg, by simp, Or.inl ⟨rfl, rfl⟩, ?_, ?_, hp, by simp, ?_, by simp⟩
  · intro a b; simp [uses]
  · intro v; simp [ends]
  · intro v hv
    simp at hv
    subst hv
    exact Relation.ReflTransGen.refl

/-- the path visits exactly the connected component of the start -/
theorem EulerDone.mem_iff {d d' : Adj} {s t : ℕ} {p : List ℕ}
    (h : EulerDone (adj d) (Reach (adj d) s) s t p d') (v : ℕ) : v ∈ p ↔ Reach (adj d) s v := by
  constructor
  · exact h.inside v
  · intro hv
    induction hv with
    | refl =>
      have := h.newest
      exact List.mem_of_head? this
    | @tail b c _ hc ih =>
      have h1 := h.edges b c
      have h2 : ind (adj d) b c = 1 := by simp [ind, hc]
      have h3 : ind (adj d') b c = 0 := by simp [ind, h.isolated b ih]
      exact (uses_mem (a := b) (b := c) (l := p) (by omega)).2

/-! ### graphs of degree at most two -/

/-- a partial trail from `s` with top `x` -/
structure TrailInv (G : ℕ → Finset ℕ) (s x : ℕ) (rest : List ℕ) (d : Adj) : Prop where
  good : GoodGraph d
  bottom : (x :: rest).getLast? = some s
  edges : ∀ a b, ind G a b = ind (adj d) a b + uses a b (x :: rest)
  degrees : ∀ v, (G v).card = (adj d v).card + ends v (x :: rest)

theorem maximal_trail (G : ℕ → Finset ℕ) (s : ℕ) :
    ∀ (n : ℕ) (x : ℕ) (rest : List ℕ) (d : Adj), entries d ≤ n → TrailInv G s x rest d →
      ∃ x' rest' d', TrailInv G s x' rest' d' ∧ adj d' x' = ∅ := by
  intro n
  induction n with
  | zero =>
    intro x rest d hn inv
    refine ⟨x, rest, d, inv, ?_⟩
    cases hx : d.get? x with
    | none => exact adj_of_none hx
    | some t =>
      exfalso
      obtain ⟨u, hu⟩ := inv.good.nonempty x t hx
      have := entries_set_lt d x t (t.erase u) hx (Finset.card_erase_lt_of_mem hu)
      omega
  | succ n ih =>
    intro x rest d hn inv
    cases hx : d.get? x with
    | none => exact ⟨x, rest, d, inv, adj_of_none hx⟩
    | some t =>
      obtain ⟨u, hu⟩ := inv.good.nonempty x t hx
      have hux : u ∈ adj d x := by rw [adj_of_get? hx]; exact hu
      obtain ⟨hgood, hadj⟩ := step_spec inv.good hx hu
      have hmeas : entries (removeEdge (d.set x (t.erase u)) u x) < entries d :=
        lt_of_le_of_lt (entries_removeEdge_le _ _ _)
          (entries_set_lt d x t _ hx (Finset.card_erase_lt_of_mem hu))
      refine ih u (x :: rest) _ (by omega) ⟨hgood, by simpa using inv.bottom, ?_, ?_⟩
      · intro a b
        have h1 := inv.edges a b
        have h2 := ind_erase inv.good hux hadj a b
        simp only [uses]; omega
      · intro v
        have h1 := inv.degrees v
        have h2 := card_erase' inv.good hux hadj v
        simp only [ends]; omega

/-- In a graph with all degrees at most 2, the component of a vertex of degree 1 has exactly one
other vertex of odd degree. -/
theorem odd_partner (d : Adj) (hg : GoodGraph d) (h2 : ∀ v, (adj d v).card ≤ 2) (s : ℕ)
    (hs : (adj d s).card = 1) :
    ∃ t, ∀ v, Reach (adj d) s v → (Odd (adj d v).card ↔ OneOf (v = s) (v = t)) := by
  obtain ⟨x, rest, d', inv, hx⟩ := maximal_trail (adj d) s (entries d) s [] d le_rfl
    ⟨hg, by simp, by intro a b; simp [uses], by intro v; simp [ends]⟩
  have hcount : ∀ v, ends v (x :: rest) + (if x = v then 1 else 0) + (if s = v then 1 else 0) =
      2 * (x :: rest).count v := fun v => ends_count v (x :: rest) x s rfl inv.bottom
  have hxs : x ≠ s := by
    rintro rfl
    have h3 := hcount x
    have h4 := inv.degrees x
    rw [hx, hs] at h4
    simp at h3 h4
    omega
  have hiso : ∀ v ∈ x :: rest, adj d' v = ∅ := by
    intro v hv
    have hc : 0 < (x :: rest).count v := List.count_pos_iff.mpr hv
    have h3 := hcount v
    have h4 := inv.degrees v
    by_cases hvx : x = v
    · rw [← hvx]; exact hx
    · by_cases hvs : s = v
      · subst hvs
        simp only [hvx, if_false, if_true] at h3
        rw [hs] at h4
        have : (adj d' s).card = 0 := by omega
        exact Finset.card_eq_zero.mp this
      · simp only [hvx, hvs, if_false] at h3
        have h5 := h2 v
        have : (adj d' v).card = 0 := by omega
        exact Finset.card_eq_zero.mp this
  have hreach : ∀ v, Reach (adj d) s v → v ∈ x :: rest := by
    intro v hv
    induction hv with
    | refl =>
      have := inv.bottom
      exact List.mem_of_getLast? this
    | @tail b c _ hc ih =>
      have h3 := inv.edges b c
      have h4 : ind (adj d) b c = 1 := by simp [ind, hc]
      have h5 : ind (adj d') b c = 0 := by simp [ind, hiso b ih]
      exact (uses_mem (a := b) (b := c) (l := x :: rest) (by omega)).2
  refine ⟨x, ?_⟩
  intro v hv
  have hm := hreach v hv
  have h3 := hcount v
  have h4 := inv.degrees v
  rw [hiso v hm, Finset.card_empty, zero_add] at h4
  rw [h4, Nat.odd_iff]
  unfold OneOf
  by_cases hvx : v = x
  · have h6 : ¬ v = s := by rw [hvx]; exact hxs
    have h7 : ¬ s = v := fun h => h6 h.symm
    rw [if_pos hvx.symm, if_neg h7] at h3
    constructor
    · intro _; exact Or.inr ⟨h6, hvx⟩
    · intro _; omega
  · rw [if_neg (fun h => hvx h.symm)] at h3
    by_cases hvs : v = s
    · rw [if_pos hvs.symm] at h3
      constructor
      · intro _; exact Or.inl ⟨hvs, hvx⟩
      · intro _; omega
    · rw [if_neg (fun h => hvs h.symm)] at h3
      constructor
      · intro h; omega
      · rintro (⟨h, _⟩ | ⟨_, h⟩)
        · exact absurd h hvs
        · exact absurd h hvx

end Geometry
end Blmath

namespace Blmath.Geometry
open Graph

/-! ### building the graph -/

theorem adj_touch (d : Adj) (u w : ℕ) : adj (touch d u) w = adj d w := by
  unfold touch
  split
  · rfl
  · rename_i h
    rw [adj_set]
    split
    · rename_i hw
      subst hw
      have : d.get? w = none := by
        simpa [Dict.contains] using h
      rw [adj_of_none this]
    · rfl

theorem touch_nodup (d : Adj) (u : ℕ) (h : d.keys.Nodup) : (touch d u).keys.Nodup := by
  unfold touch
  split
  · exact h
  · exact Dict.keys_set_nodup _ _ _ h

theorem touch_get?_self (d : Adj) (u : ℕ) : ∃ s, (touch d u).get? u = some s := by
  unfold touch
  split
  · rename_i h
    exact Option.isSome_iff_exists.mp h
  · exact ⟨_, Dict.get?_set_same d u ∅⟩

theorem touch_get?_ne (d : Adj) {u w : ℕ} (h : w ≠ u) : (touch d u).get? w = d.get? w := by
  unfold touch
  split
  · rfl
  · exact Dict.get?_set_ne d ∅ h

theorem addTo_some (d : Adj) (u v : ℕ) (s : Finset ℕ) (h : d.get? u = some s) :
    addTo d u v = d.set u (insert v s) := by
  unfold addTo; rw [h]

/-- `add_edge` adds exactly the edge between its two (different) vertices. -/
theorem addEdge_spec (ver : PyVer) (g : Graph) (hg : GoodGraph g.d) (u v : ℕ) (hu : u < g.size)
    (hv : v < g.size) (hne : u ≠ v) :
    ∃ d', addEdge ver g (some u) (some v) = .ok ⟨g.size, d'⟩ ∧ GoodGraph d' ∧
      ∀ a b, b ∈ adj d' a ↔ b ∈ adj g.d a ∨ (a = u ∧ b = v) ∨ (a = v ∧ b = u) := by
  set d1 := touch g.d u with hd1
  set d2 := touch d1 v with hd2
  obtain ⟨su0, hsu0⟩ := touch_get?_self g.d u
  have hsu : d2.get? u = some su0 := by
    rw [hd2, touch_get?_ne d1 hne]; exact hsu0
  obtain ⟨sv, hsv⟩ := touch_get?_self d1 v
  have e1 := addTo_some d2 u v su0 hsu
  set d3 := d2.set u (insert v su0) with hd3
  have hsv3 : d3.get? v = some sv := by
    rw [hd3, Dict.get?_set_ne _ _ (Ne.symm hne)]; exact hsv
  have e2 := addTo_some d3 v u sv hsv3
  set d4 := d3.set v (insert u sv) with hd4
  have n4 : d4.keys.Nodup :=
    Dict.keys_set_nodup _ _ _ (Dict.keys_set_nodup _ _ _ (touch_nodup _ _ (touch_nodup _ _ hg.nodup)))
  have a2 : ∀ w, adj d2 w = adj g.d w := fun w => by rw [hd2, adj_touch, hd1, adj_touch]
  have au : su0 = adj g.d u := by rw [← a2, adj_of_get? hsu]
  have av : sv = adj g.d v := by rw [← a2, adj_of_get? hsv]
  have a4 : ∀ w, adj d4 w = if w = v then insert u (adj g.d v) else if w = u then
      insert v (adj g.d u) else adj g.d w := by
    intro w
    rw [hd4, adj_set, hd3, adj_set, a2, au, av]
  have hmem : ∀ a b, b ∈ adj d4 a ↔ b ∈ adj g.d a ∨ (a = u ∧ b = v) ∨ (a = v ∧ b = u) := by
    intro a b
    rw [a4]
    by_cases h1 : a = v
    · subst h1
      have : ¬ a = u := Ne.symm hne
      simp [this, or_comm]
    · rw [if_neg h1]
      by_cases h2 : a = u
      · subst h2; simp [h1, or_comm]
      · simp [h1, h2]
  refine ⟨d4, ?_, ⟨n4, ?_, ?_, ?_⟩, hmem⟩
  · unfold addEdge checkVertex
    simp only [hu, hv, if_true, ok_bind, pure_eq_ok]
    rw [← hd1, ← hd2, e1, e2]
  · intro w s hs
    have hw := adj_of_get? hs
    rw [a4] at hw
    by_cases h1 : w = v
    · rw [if_pos h1] at hw; rw [← hw]; exact Finset.insert_nonempty _ _
    · rw [if_neg h1] at hw
      by_cases h2 : w = u
      · rw [if_pos h2] at hw; rw [← hw]; exact Finset.insert_nonempty _ _
      · rw [hd4, Dict.get?_set_ne _ _ h1, hd3, Dict.get?_set_ne _ _ h2, hd2, touch_get?_ne _ h1, hd1,
          touch_get?_ne _ h2] at hs
        exact hg.nonempty w s hs
  · intro a b hb
    rw [hmem] at hb ⊢
    rcases hb with h | ⟨h1, h2⟩ | ⟨h1, h2⟩
    · exact Or.inl (hg.symm _ _ h)
    · exact Or.inr (Or.inr ⟨h2, h1⟩)
    · exact Or.inr (Or.inl ⟨h2, h1⟩)
  · intro w hw
    rw [hmem] at hw
    rcases hw with h | ⟨h1, h2⟩ | ⟨h1, h2⟩
    · exact hg.loopless w h
    · exact hne (h1 ▸ h2)
    · exact hne (h2 ▸ h1)

theorem goodGraph_nil : GoodGraph ([] : Adj) :=
  ⟨List.nodup_nil, by simp, by simp [adj], by simp [adj]⟩

/-! ### any graph: the run always ends, and uses up exactly one component -/

/-- invariant that needs no assumption about degrees -/
structure WeakInv (G : ℕ → Finset ℕ) (s : ℕ) (stack path : List ℕ) (d : Adj) : Prop where
  good : GoodGraph d
  start : s ∈ stack ++ path
  inside : ∀ v ∈ stack ++ path, Reach G s v
  isolated : ∀ v ∈ path, adj d v = ∅
  sub : ∀ a b, b ∈ adj d a → b ∈ G a
  seen : ∀ a b, b ∈ G a → b ∈ adj d a ∨ (a ∈ stack ++ path ∧ b ∈ stack ++ path)

theorem eulerLoop_weak (G : ℕ → Finset ℕ) (s : ℕ) (pk : Picker) :
    ∀ (n k : ℕ) (stack path : List ℕ) (d : Adj), 2 * entries d + stack.length ≤ n →
      WeakInv G s stack path d →
      ∃ p d', eulerLoop pk k stack path d = .ok (p, d') ∧ WeakInv G s [] p d' ∧
        (entries d' + 2 * p.length = entries d + 2 * (stack.length + path.length)) ∧
        entries d' ≤ entries d ∧
        ∀ x rest, stack = x :: rest → adj d x ≠ ∅ → entries d' < entries d := by
  intro n
  induction n with
  | zero =>
    intro k stack path d hn inv
    have : stack = [] := List.length_eq_zero_iff.mp (by omega)
    subst this
    rw [eulerLoop]
    exact ⟨path, d, rfl, inv, by simp, le_rfl, by simp⟩
  | succ n ih =>
    intro k stack path d hn inv
    cases stack with
    | nil => rw [eulerLoop]; exact ⟨path, d, rfl, inv, by simp, le_rfl, by simp⟩
    | cons x rest =>
      rw [eulerLoop]
      split
      · rename_i s' hs'
        have hne : s'.Nonempty := inv.good.nonempty x s' hs'
        rw [dif_pos hne]
        have hu : pk.pick k s' ∈ s' := pk.mem k s' hne
        set u := pk.pick k s' with hudef
        have hax : adj d x = s' := adj_of_get? hs'
        have hux : u ∈ adj d x := by rw [hax]; exact hu
        obtain ⟨hgood, hadj⟩ := step_spec inv.good hs' hu
        have hmeas : entries (removeEdge (d.set x (s'.erase u)) u x) < entries d :=
          lt_of_le_of_lt (entries_removeEdge_le _ _ _)
            (entries_set_lt d x s' _ hs' (Finset.card_erase_lt_of_mem hu))
        have hexact := step_entries inv.good hs' hu
        simp only
        have hsub : ∀ a b, b ∈ adj (removeEdge (d.set x (s'.erase u)) u x) a → b ∈ adj d a := by
          intro a b hb
          rw [hadj] at hb
          split at hb
          · rename_i h; rw [h]; exact Finset.mem_of_mem_erase hb
          · split at hb
            · rename_i h; rw [h]; exact Finset.mem_of_mem_erase hb
            · exact hb
        obtain ⟨p, d', h1, h2, h3, h5', _⟩ := ih (k + 1) (u :: x :: rest) path
          (removeEdge (d.set x (s'.erase u)) u x) (by simp only [List.length_cons] at hn ⊢; omega) (by
          refine ⟨hgood, ?_, ?_, ?_, fun a b hb => inv.sub a b (hsub a b hb), ?_⟩
          · exact List.mem_cons_of_mem _ inv.start
          · intro v hv
            rw [List.cons_append, List.mem_cons] at hv
            rcases hv with rfl | hv
            · exact (inv.inside x (by simp)).tail (inv.sub _ _ hux)
            · exact inv.inside v hv
          · intro v hv
            apply Finset.eq_empty_of_forall_notMem
            intro b hb
            have := hsub _ _ hb
            rw [inv.isolated v hv] at this
            simp at this
          · intro a b hb
            rcases inv.seen a b hb with h | ⟨h, h'⟩
            · by_cases hc : b ∈ adj (removeEdge (d.set x (s'.erase u)) u x) a
              · exact Or.inl hc
              · right
                rw [hadj] at hc
                split at hc
                · rename_i hax'
                  subst hax'
                  rw [Finset.mem_erase] at hc
                  have : b = u := by
                    by_contra hbu; exact hc ⟨hbu, h⟩
                  subst this
                  simp
                · split at hc
                  · rename_i hau
                    rw [Finset.mem_erase] at hc
                    rw [hau] at h
                    have : b = x := by
                      by_contra hbu; exact hc ⟨hbu, h⟩
                    subst this
                    rw [hau]; simp
                  · exact absurd h hc
            · exact Or.inr ⟨List.mem_cons_of_mem _ h, List.mem_cons_of_mem _ h'⟩)
        refine ⟨p, d', h1, h2, ?_, by omega, fun _ _ _ _ => by omega⟩
        simp only [List.length_cons] at h3 ⊢
        omega
      · rename_i hnone
        have hax : adj d x = ∅ := adj_of_none hnone
        have hmem : ∀ v, v ∈ rest ++ x :: path ↔ v ∈ (x :: rest) ++ path := by
          intro v
          simp only [List.mem_append, List.mem_cons]
          constructor
          · rintro (h | h | h) <;> simp [h]
          · rintro ((h | h) | h) <;> simp [h]
        obtain ⟨p, d', h1, h2, h3, h5', _⟩ := ih k rest (x :: path) d
          (by simp only [List.length_cons] at hn; omega) (by
          refine ⟨inv.good, (hmem s).mpr inv.start, fun v hv => inv.inside v ((hmem v).mp hv), ?_,
            inv.sub, ?_⟩
          · intro v hv
            rcases List.mem_cons.mp hv with rfl | hv
            · exact hax
            · exact inv.isolated v hv
          · intro a b hb
            rcases inv.seen a b hb with h | ⟨h, h'⟩
            · exact Or.inl h
            · exact Or.inr ⟨(hmem a).mpr h, (hmem b).mpr h'⟩)
        refine ⟨p, d', h1, h2, by simp only [List.length_cons] at h3 ⊢; omega, h5', ?_⟩
        intro y r hyr hy
        injection hyr with h4 _
        rw [← h4] at hy
        exact absurd hax hy

/-- On any symmetric graph the loop returns; the path visits exactly the component of the start,
whose edges are all gone, and the rest of the graph is as before. -/
theorem euler_weak (d : Adj) (hg : GoodGraph d) (s : ℕ) (hs : adj d s ≠ ∅) (pk : Picker) (k : ℕ) :
    ∃ p d', eulerLoop pk k [s] [] d = .ok (p, d') ∧ GoodGraph d' ∧ entries d' < entries d ∧
      (∀ v, v ∈ p ↔ Reach (adj d) s v) ∧ entries d' + 2 * p.length = entries d + 2 ∧
      ∀ v, adj d' v = open Classical in if Reach (adj d) s v then ∅ else adj d v := by
  obtain ⟨p, d', h1, h2, h5, _, h4⟩ := eulerLoop_weak (adj d) s pk _ k [s] [] d le_rfl
    ⟨hg, by simp, by
      intro v hv
      simp at hv
      subst hv
      exact Relation.ReflTransGen.refl, by simp, fun _ _ h => h, fun _ _ h => Or.inl h⟩
  have hmem : ∀ v, v ∈ p ↔ Reach (adj d) s v := by
    intro v
    constructor
    · intro hv; exact h2.inside v (by simpa using hv)
    · intro hv
      induction hv with
      | refl => simpa using h2.start
      | @tail b c _ hc ih =>
        rcases h2.seen b c hc with h | h
        · rw [h2.isolated b ih] at h; simp at h
        · simpa using h.2
  refine ⟨p, d', h1, h2.good, h4 s [] rfl hs, hmem, by simpa using h5, ?_⟩
  intro v
  by_cases hv : Reach (adj d) s v
  · simp only [hv, if_true]
    exact h2.isolated v ((hmem v).mpr hv)
  · simp only [hv, if_false]
    ext b
    constructor
    · exact h2.sub v b
    · intro hb
      rcases h2.seen v b hb with h | h
      · exact h
      · exact absurd ((hmem v).mp (by simpa using h.1)) hv

theorem eq_nil_of_adj {d : Adj} (hg : GoodGraph d) (h : ∀ v, adj d v = ∅) : d = [] := by
  cases d with
  | nil => rfl
  | cons a d =>
    obtain ⟨k, t⟩ := a
    have hk : Dict.get? ((k, t) :: d) k = some t := by rw [Dict.get?_cons, if_pos rfl]
    have := h k
    rw [adj_of_get? hk] at this
    exact absurd this (hg.nonempty k t hk).ne_empty

/-- number of key entries of `d`'s order with odd degree -/
def oddKeys (ko : KeyOrder) (d : Adj) : List ℕ :=
  (ko.order d).filter fun x => decide (Odd (adj d x).card)

theorem oddKeys_eq (ko : KeyOrder) (d : Adj) :
    (ko.order d).filter (oddDegree d) = oddKeys ko d := by
  unfold oddKeys
  apply List.filter_congr
  intro x _
  unfold adj oddDegree
  cases h : d.get? x with
  | none => simp
  | some s => simp [Nat.odd_iff, Bool.beq_eq_decide_eq]

/-- the start chosen by `pop_euler_path` -/
theorem popEulerPath_start (pk : Picker) (ko : KeyOrder) (g : Graph) (hg : GoodGraph g.d)
    (hne : g.d ≠ []) :
    ∃ s, adj g.d s ≠ ∅ ∧ (Odd (adj g.d s).card ∨ ∀ v, Even (adj g.d v).card) ∧
      popEulerPath pk ko g = (do
        let (path, d) ← eulerLoop pk 0 [s] [] g.d
        pure (some path.reverse, { g with d := d })) := by
  have hmem : ∀ v, v ∈ ko.order g.d ↔ adj g.d v ≠ ∅ := by
    intro v
    rw [(ko.perm g.d).mem_iff, Dict.mem_keys_iff, Dict.contains, Option.isSome_iff_ne_none,
      Ne, get?_none_iff hg.nonempty]
  cases ho : ko.order g.d with
  | nil =>
    exfalso
    have := (ko.perm g.d).length_eq
    rw [ho] at this
    simp [Dict.keys] at this
    exact hne (List.length_eq_zero_iff.mp this.symm)
  | cons first tl =>
    have hodd := oddKeys_eq ko g.d
    have hfirst : adj g.d first ≠ ∅ := (hmem first).mp (by rw [ho]; simp)
    cases hk : oddKeys ko g.d with
    | nil =>
      refine ⟨first, hfirst, Or.inr ?_, ?_⟩
      · intro v
        by_contra hc
        rw [Nat.not_even_iff_odd] at hc
        have hv : v ∈ ko.order g.d := (hmem v).mpr (by
          intro h; rw [h] at hc; simp at hc)
        have : v ∈ oddKeys ko g.d := by
          unfold oddKeys; rw [List.mem_filter]; exact ⟨hv, by simpa using hc⟩
        rw [hk] at this
        simp at this
      · unfold popEulerPath
        simp only [hodd, hk, List.nil_append]
        rw [ho]
        rfl
    | cons o os =>
      have hmo : o ∈ oddKeys ko g.d := by rw [hk]; simp
      unfold oddKeys at hmo
      rw [List.mem_filter] at hmo
      refine ⟨o, (hmem o).mp hmo.1, Or.inl (by simpa using hmo.2), ?_⟩
      unfold popEulerPath
      simp only [hodd, hk, List.cons_append]
      rw [ho]
      rfl

theorem uses_reverse (a b : ℕ) (l : List ℕ) : uses a b l.reverse = uses a b l := by
  have app : ∀ (l : List ℕ) (x y : ℕ), uses a b (l ++ [x, y]) = uses a b (l ++ [x]) + isEdge a b x y := by
    intro l
    induction l with
    | nil => intro x y; simp [uses]
    | cons z l ih =>
      intro x y
      cases l with
      | nil => simp [uses]
      | cons w l =>
        have := ih x y
        simp only [List.cons_append, uses] at this ⊢
        omega
  induction l with
  | nil => rfl
  | cons x l ih =>
    cases l with
    | nil => rfl
    | cons y l =>
      have e : (x :: y :: l).reverse = l.reverse ++ [y, x] := by simp
      rw [e, app]
      have e2 : l.reverse ++ [y] = (y :: l).reverse := by simp
      rw [e2, ih]
      simp only [uses]
      rw [isEdge_comm a b y x]
      omega

theorem isWalk_of_uses (G : ℕ → Finset ℕ) (l : List ℕ)
    (h : ∀ a b, uses a b l ≤ ind G a b) : IsWalk G l := by
  unfold IsWalk
  induction l with
  | nil => exact List.IsChain.nil
  | cons x l ih =>
    cases l with
    | nil => exact List.IsChain.singleton _
    | cons y l =>
      rw [List.isChain_cons_cons]
      refine ⟨?_, ih fun a b => le_trans (by simp only [uses]; omega) (h a b)⟩
      have := h x y
      have e : isEdge x y x y = 1 := by simp [isEdge]
      simp only [uses, e] at this
      by_contra hc
      simp [ind, hc] at this

/-- what the run has done, phrased with the component of the start -/
theorem EulerDone.usesComponent {d d' : Adj} {s t : ℕ} {p : List ℕ}
    (h : EulerDone (adj d) (Reach (adj d) s) s t p d') :
    UsesComponent (adj d) s p ∧ IsWalk (adj d) p := by
  refine ⟨⟨?_, ?_⟩, isWalk_of_uses _ _ fun a b => by have := h.edges a b; omega⟩
  · intro a b ha
    have h1 := h.edges a b
    have h2 : adj d' a = ∅ := h.isolated a ((h.mem_iff a).mpr ha)
    have h3 : ind (adj d') a b = 0 := by simp [ind, h2]
    omega
  · intro a b ha
    by_contra hc
    exact ha ((h.mem_iff a).mp (uses_mem hc).1)

end Blmath.Geometry
