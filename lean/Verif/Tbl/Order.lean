import Verif.Tbl.Group
/-!
# Ordering tables and index selection: C57, C75

`/repo/rapidudf/functions/simd/vector_sort.cc` 50–117 and `/repo/rapidudf/table/table.cc` 445–473, 499–529. The external sorting library is a parameter; its contract
(a permutation, applied alike to keys and values, that sorts the keys) is a hypothesis. Keys are of a type with a comparison `le`; NaN is outside the model.
-/
namespace Verif.Tbl

/-! ## The code -/

/-- `simd_vector_argselect`, vector_sort.cc 58–88. `asc k n` is the library's ascending selection on this data, `argsort` its descending sort. -/
def argselect (asc : Nat → List Nat) (argsortDesc : List Nat) (n k : Nat) (descending : Bool) : List Nat :=
  if descending = true then
    if k ≥ n then argsortDesc
    else (asc (n - k)).drop (n - k) ++ (asc (n - k)).take (n - k)
  else asc k

/-- A key vector: elements and the writable flag. -/
structure KeyVec (K : Type) where
  vals : List K
  writable : Bool

/-- `simd_vector_sort_key_value`, vector_sort.cc 91–104: `sortKV` is `keyvalue_qsort`. -/
def sortKeyValue {K : Type} (sortKV : List K → List Nat → List K × List Nat) (key : KeyVec K) (value : List Nat) : Res (List K × List Nat) :=
  if key.writable = false then .throw
  else if key.vals.length ≠ value.length then .throw
  else .ok (sortKV key.vals value)

/-- `OrderBy(Vector)`, table.cc 446–456. The result is the new table and the key vector after the call. -/
def orderBy {P K : Type} (null : P) (N : Nat) (sortKV : List K → List Nat → List K × List Nat) (t : Table P) (by_ : KeyVec K) : Res (Table P × KeyVec K) :=
  match sortKeyValue sortKV by_ (List.range (count t)) with
  | .throw => .throw
  | .ub => .ub
  | .ok r =>
    match gatherSub null N t r.2 with
    | none => .ub
    | some t' => .ok (t', { by_ with vals := r.1 })

/-- `OrderBy(column name)`, table.cc 499–529: the column is taken as it is, loaded or not; a column that is not loaded has no elements. -/
def orderByColumn {P K : Type} (null : P) (N : Nat) (sortKV : List K → List Nat → List K × List Nat) (t : Table P) (loaded : Option (KeyVec K)) : Res (Table P × KeyVec K) :=
  orderBy null N sortKV t (loaded.getD ⟨[], true⟩)

/-- `Topk(Vector)`, table.cc 458–473; `partialKV k` is `keyvalue_partial_sort`. -/
def topk {P K : Type} (null : P) (N : Nat) (partialKV : Nat → List K → List Nat → List K × List Nat) (t : Table P) (by_ : KeyVec K) (k : Nat) :
    Res (Table P × KeyVec K) :=
  let k := if k > count t then count t else k
  match sortKeyValue (partialKV k) by_ (List.range (count t)) with
  | .throw => .throw
  | .ub => .ub
  | .ok r =>
    match gatherSub null N t (r.2.take k) with
    | none => .ub
    | some t' => .ok (t', { by_ with vals := r.1 })

/-! ## Contracts of the library -/

/-- `argselect(k)`: a permutation of the indices such that no element selected first is greater than one selected after. -/
def SelectContract {K : Type} (le : K → K → Prop) (data : List K) (k : Nat) (idx : List Nat) : Prop :=
  idx.Perm (List.range data.length) ∧
    ∀ i ∈ idx.take k, ∀ j ∈ idx.drop k, ∀ x y, data[i]? = some x → data[j]? = some y → le x y

/-- `argsort` descending: a permutation with the elements descending. -/
def ArgsortDescContract {K : Type} (le : K → K → Prop) (data : List K) (idx : List Nat) : Prop :=
  idx.Perm (List.range data.length) ∧ (idx.filterMap (fun i => data[i]?)).Pairwise (fun x y => le y x)

/-- `keyvalue_qsort`: the same permutation is applied to keys and values, and the keys are then in order. -/
def SortContract {K : Type} (le : K → K → Prop) (keys : List K) (vals : List Nat) (r : List K × List Nat) : Prop :=
  ∃ σ : List Nat, σ.Perm (List.range keys.length) ∧ r.1 = σ.filterMap (fun i => keys[i]?) ∧ r.2 = σ.filterMap (fun i => vals[i]?) ∧ r.1.Pairwise le

/-- `keyvalue_partial_sort(k)`: likewise, but only the first `k` keys are in order and none of the others comes before them. -/
def PartialContract {K : Type} (le : K → K → Prop) (k : Nat) (keys : List K) (vals : List Nat) (r : List K × List Nat) : Prop :=
  ∃ σ : List Nat, σ.Perm (List.range keys.length) ∧ r.1 = σ.filterMap (fun i => keys[i]?) ∧ r.2 = σ.filterMap (fun i => vals[i]?) ∧
    (r.1.take k).Pairwise le ∧ ∀ x ∈ r.1.take k, ∀ y ∈ r.1.drop k, le x y

/-! ## C57 -/

/-- **C57.** The first `k` indices of a descending selection are those of `k` greatest elements: none of the remaining ones is greater than one of them; and the indices are a
permutation of all. -/
theorem argselect_descending {K : Type} (le : K → K → Prop) (data : List K) (k : Nat) (asc : Nat → List Nat) (argsortDesc : List Nat)
    (h1 : ∀ m, m ≤ data.length → SelectContract le data m (asc m)) (h2 : ArgsortDescContract le data argsortDesc) :
    (argselect asc argsortDesc data.length k true).Perm (List.range data.length) ∧
      ∀ i ∈ (argselect asc argsortDesc data.length k true).take k, ∀ j ∈ (argselect asc argsortDesc data.length k true).drop k,
        ∀ x y, data[i]? = some x → data[j]? = some y → le y x := by
  unfold argselect
  simp only [if_true]
  by_cases hk : k ≥ data.length
  · rw [if_pos hk]
    refine ⟨h2.1, ?_⟩
    intro i _ j hj
    have hl : argsortDesc.length = data.length := by simpa using h2.1.length_eq
    rw [List.drop_eq_nil_of_le (by omega)] at hj
    simp at hj
  · rw [if_neg hk]
    obtain ⟨c1, c2⟩ := h1 (data.length - k) (by omega)
    have hl : (asc (data.length - k)).length = data.length := by simpa using c1.length_eq
    have hd : ((asc (data.length - k)).drop (data.length - k)).length = k := by rw [List.length_drop]; omega
    refine ⟨?_, ?_⟩
    · refine List.Perm.trans List.perm_append_comm ?_
      rw [List.take_append_drop]
      exact c1
    · intro i hi j hj x y hx hy
      rw [List.take_left' hd] at hi
      rw [List.drop_left' hd] at hj
      exact c2 j hj i hi y x hy hx

/-- **C57.** The ascending selection is the library's. -/
theorem argselect_ascending {K : Type} (le : K → K → Prop) (data : List K) (k : Nat) (asc : Nat → List Nat) (argsortDesc : List Nat)
    (h1 : SelectContract le data k (asc k)) : SelectContract le data k (argselect asc argsortDesc data.length k false) := by
  unfold argselect
  simpa using h1

/-! ## C75 -/

theorem filterMap_range (n : Nat) (σ : List Nat) (h : ∀ i ∈ σ, i < n) : σ.filterMap (fun i => (List.range n)[i]?) = σ := by
  induction σ with
  | nil => rfl
  | cons a σ ih =>
    have ha := h a (by simp)
    rw [List.filterMap_cons, List.getElem?_range ha]
    simp [ih (fun i hi => h i (List.mem_cons_of_mem _ hi))]

/-- **C75.** Ordering by a writable key vector of the table's size returns the same rows, rearranged so that their keys are in order. -/
theorem order_by_rows {P K : Type} (le : K → K → Prop) (null : P) (N : Nat) (hN : 0 < N) (sortKV : List K → List Nat → List K × List Nat) (t : Table P) (ha : Aligned t)
    (by_ : KeyVec K) (hw : by_.writable = true) (hl : by_.vals.length = count t) (hc : ∀ vals, SortContract le by_.vals vals (sortKV by_.vals vals)) :
    ∃ (σ : List Nat) (after : KeyVec K), orderBy null N sortKV t by_ = .ok (pick t σ, after) ∧ σ.Perm (List.range (count t)) ∧
      (σ.filterMap (fun i => by_.vals[i]?)).Pairwise le ∧ after.vals = σ.filterMap (fun i => by_.vals[i]?) := by
  obtain ⟨σ, p1, p2, p3, p4⟩ := hc (List.range (count t))
  rw [hl] at p1
  have hlt : ∀ i ∈ σ, i < count t := fun i hi => List.mem_range.1 (p1.mem_iff.1 hi)
  rw [filterMap_range _ _ hlt] at p3
  refine ⟨σ, { by_ with vals := (sortKV by_.vals (List.range (count t))).1 }, ?_, p1, by rw [← p2]; exact p4, p2⟩
  unfold orderBy sortKeyValue
  rw [hw]
  simp only [Bool.true_eq_false, if_false, hl, List.length_range, ne_eq, not_true_eq_false]
  rw [p3, gatherSub_ok null N hN t ha σ hlt]

/-- **C75.** `Topk` returns `min(k, n)` rows: those that come first when ordered, in order. -/
theorem topk_rows {P K : Type} (le : K → K → Prop) (null : P) (N : Nat) (hN : 0 < N) (partialKV : Nat → List K → List Nat → List K × List Nat) (t : Table P) (ha : Aligned t)
    (by_ : KeyVec K) (hw : by_.writable = true) (hl : by_.vals.length = count t) (k : Nat)
    (hc : ∀ m vals, m ≤ count t → PartialContract le m by_.vals vals (partialKV m by_.vals vals)) :
    ∃ (σ : List Nat) (after : KeyVec K), topk null N partialKV t by_ k = .ok (pick t (σ.take (min k (count t))), after) ∧ σ.Perm (List.range (count t)) ∧
      ((σ.take (min k (count t))).filterMap (fun i => by_.vals[i]?)).Pairwise le ∧
      ∀ i ∈ σ.take (min k (count t)), ∀ j ∈ σ.drop (min k (count t)), ∀ x y, by_.vals[i]? = some x → by_.vals[j]? = some y → le x y := by
  have hmin : (if k > count t then count t else k) = min k (count t) := by split <;> omega
  obtain ⟨σ, p1, p2, p3, p4, p5⟩ := hc (min k (count t)) (List.range (count t)) (by omega)
  rw [hl] at p1
  have hlt : ∀ i ∈ σ, i < count t := fun i hi => List.mem_range.1 (p1.mem_iff.1 hi)
  have hlv : ∀ i ∈ σ, i < by_.vals.length := fun i hi => by rw [hl]; exact hlt i hi
  rw [filterMap_range _ _ hlt] at p3
  have htake : ∀ (σ : List Nat) (m : Nat), (∀ i ∈ σ, i < by_.vals.length) →
      (σ.filterMap (fun i => by_.vals[i]?)).take m = (σ.take m).filterMap (fun i => by_.vals[i]?) ∧
      (σ.filterMap (fun i => by_.vals[i]?)).drop m = (σ.drop m).filterMap (fun i => by_.vals[i]?) := by
    intro σ
    induction σ with
    | nil => intro m _; simp
    | cons a σ ih =>
      intro m h
      have ha := h a (by simp)
      cases m with
      | zero => simp
      | succ m =>
        obtain ⟨i1, i2⟩ := ih m (fun i hi => h i (List.mem_cons_of_mem _ hi))
        rw [List.take_succ_cons, List.drop_succ_cons, List.filterMap_cons, List.filterMap_cons, List.getElem?_eq_getElem ha]
        simp [i1, i2]
  refine ⟨σ, { by_ with vals := (partialKV (min k (count t)) by_.vals (List.range (count t))).1 }, ?_, p1, ?_, ?_⟩
  · unfold topk sortKeyValue
    simp only [hmin, hw, Bool.true_eq_false, if_false, hl, List.length_range, ne_eq, not_true_eq_false]
    rw [p3, gatherSub_ok null N hN t ha _ (fun i hi => hlt i (List.mem_of_mem_take hi))]
  · rw [p2, (htake σ _ hlv).1] at p4; exact p4
  · intro i hi j hj x y hx hy
    rw [p2, (htake σ _ hlv).1, (htake σ _ hlv).2] at p5
    exact p5 x (List.mem_filterMap.2 ⟨i, hi, hx⟩) y (List.mem_filterMap.2 ⟨j, hj, hy⟩)

/-- Read-only key vectors and key vectors of another length are refused. -/
theorem order_by_refused {P K : Type} (null : P) (N : Nat) (sortKV : List K → List Nat → List K × List Nat) (t : Table P) (by_ : KeyVec K)
    (h : by_.writable = false ∨ by_.vals.length ≠ count t) : orderBy null N sortKV t by_ = .throw := by
  unfold orderBy sortKeyValue
  rcases h with h | h
  · rw [h]; simp
  · cases hw : by_.writable with
    | false => simp
    | true => simp [h]

/-- C75 is false of `OrderBy(column name)` before the column has been read: the call throws for every non-empty table. -/
theorem order_by_unloaded_column_violated {P K : Type} (null : P) (N : Nat) (sortKV : List K → List Nat → List K × List Nat) (t : Table P) (h : 0 < count t) :
    orderByColumn null N sortKV t none = .throw := by
  apply order_by_refused
  right
  simp
  omega

/-- A concrete sort that meets the contract. -/
example : SortContract (· ≤ ·) [30, 10, 20] [0, 1, 2] ([10, 20, 30], [1, 2, 0]) := ⟨[1, 2, 0], by decide, rfl, rfl, by decide⟩
example : SelectContract (· ≤ ·) [30, 10, 20] 1 [1, 0, 2] := ⟨by decide, by
  intro i hi j hj x y hx hy
  simp at hi hj
  subst hi
  rcases hj with rfl | rfl <;> simp at hx hy <;> subst hx <;> subst hy <;> decide⟩

end Verif.Tbl
