import Verif.Proofs.Items

/-!
# C20, C21: item lists
-/
namespace Verif.Items

/-- C20, subset test: on duplicate-free lists it is set inclusion. -/
theorem c20_isSubset (A B : List ℤ) (hA : A.Nodup) (hB : B.Nodup) :
    isSubset A B = true ↔ ∀ x ∈ A, x ∈ B := isSubset_iff hA hB

/-- C20, union: strictly increasing (hence sorted and duplicate-free), with exactly the
items of either list. -/
theorem c20_union (l1 l2 : List ℤ) (h1 : l1.Nodup) (h2 : l2.Nodup) :
    (findItemsUnion l1 l2).Pairwise (· < ·) ∧
      ∀ x, x ∈ findItemsUnion l1 l2 ↔ x ∈ l1 ∨ x ∈ l2 :=
  ⟨union_strict h1 h2, fun _ => mem_union⟩

/-- C20, difference: a sublist of the first list (original order), duplicate-free, with
exactly the items not in the second list. -/
theorem c20_difference (items subset : List ℤ) (h : items.Nodup) :
    (findItemsDifference items subset).Sublist items ∧
    (findItemsDifference items subset).Nodup ∧
      ∀ x, x ∈ findItemsDifference items subset ↔ x ∈ items ∧ x ∉ subset := by
  rw [difference_eq]
  exact ⟨List.filter_sublist, h.filter _, fun x => by simp⟩

/-- Non-trivial case: overlapping unsorted lists. -/
example : ([5, 1, 3] : List ℤ).Nodup ∧ ([3, 2] : List ℤ).Nodup ∧
    findItemsUnion [5, 1, 3] [3, 2] = [1, 2, 3, 5] ∧
    findItemsDifference [5, 1, 3] [3, 2] = [5, 1] ∧
    isSubset [5, 3] [5, 1, 3] = true ∧ isSubset [3, 2] [5, 1, 3] = false := by
  refine ⟨by decide, by decide, ?_, by decide, by decide, by decide⟩
  simp [findItemsUnion, stdSort, stdSetUnion]

/-- The hypothesis matters: with a repeated item the test is multiset inclusion. -/
example : isSubset [3, 3] [3, 4] = false ∧ ∀ x ∈ ([3, 3] : List ℤ), x ∈ ([3, 4] : List ℤ) := by
  decide

/-- C21, first half: looking up a present item gives its first position. -/
theorem c21_present_partial (item : ℤ) (items : List ℤ) (h : item ∈ items) :
    items[findRelativeItem item items]? = some item ∧
      ∀ j < findRelativeItem item items, items[j]? ≠ some item :=
  relativeItem_getElem? h

/-- C21, second half fails: looking up an absent item raises nothing and returns position 0,
which in a non-empty list is the position of a different item. (The lookup is a total
function in the model because line 11 of src/itemsHelper.cpp does not throw.) -/
theorem c21_absent_violated (item : ℤ) (items : List ℤ) (h : item ∉ items) (hne : items ≠ []) :
    findRelativeItem item items = 0 ∧
      ∃ other, items[findRelativeItem item items]? = some other ∧ other ≠ item := by
  have h0 := relativeItem_absent h
  refine ⟨h0, ?_⟩
  rw [h0]
  cases items with
  | nil => exact absurd rfl hne
  | cons a as => exact ⟨a, by simp, fun hc => h (by simp [hc])⟩

/-- C21, whole lists: each present entry is mapped to its first position; each absent entry
to 0. -/
theorem c21_list_partial (subset items : List ℤ) (k : ℕ) (x : ℤ) (hx : subset[k]? = some x) :
    (x ∈ items → ∃ p, (findRelativeItems subset items)[k]? = some p ∧ items[p]? = some x ∧
      ∀ j < p, items[j]? ≠ some x) ∧
    (x ∉ items → (findRelativeItems subset items)[k]? = some 0) := by
  have hk : (findRelativeItems subset items)[k]? = some (findRelativeItem x items) := by
    simp [findRelativeItems, hx]
  rw [hk]
  exact ⟨fun h => ⟨_, rfl, relativeItem_getElem? h⟩, fun h => by rw [relativeItem_absent h]⟩

/-- Non-trivial cases: present at position 2; absent. -/
example : findRelativeItem 7 [4, 9, 7, 7] = 2 ∧ findRelativeItem 5 [4, 9, 7] = 0 := by decide

end Verif.Items
