import Verif.Base.Res
import Mathlib.Data.List.Sort

/-!
# Model of `src/itemsHelper.cpp`, `inst/include/itemsHelper.h`

Item lists are `std::vector<int>`; an item is an `Int` (the 32-bit range of `int` plays no
role: items are only compared). The standard algorithms used (`std::sort`, `std::find`,
`std::includes`, `std::set_union`) are modelled by the algorithms the C++ standard
describes for them.
-/
namespace Verif.Items

/-- `std::sort` on a vector of `int` with `<`: the result is the unique sorted permutation;
modelled by insertion sort. Used for inst/include/itemsHelper.h:21-27. -/
def stdSort (l : List ℤ) : List ℤ := l.insertionSort (· ≤ ·)

/-- `std::includes(B.begin(), B.end(), A.begin(), A.end())` on sorted ranges: walk through
both; fail when `B` is exhausted or its head exceeds the head of `A`.
Used for inst/include/itemsHelper.h:21-27. -/
def stdIncludes : List ℤ → List ℤ → Bool
  | _, [] => true
  | [], _ :: _ => false
  | b :: bs, a :: as =>
    if a < b then false
    else if b < a then stdIncludes bs (a :: as)
    else stdIncludes bs as

/-- `std::set_union` on sorted ranges. Used for src/itemsHelper.cpp:36-49. -/
def stdSetUnion : List ℤ → List ℤ → List ℤ
  | [], bs => bs
  | a :: as, [] => a :: as
  | a :: as, b :: bs =>
    if a < b then a :: stdSetUnion as (b :: bs)
    else if b < a then b :: stdSetUnion (a :: as) bs
    else a :: stdSetUnion as bs

/-- inst/include/itemsHelper.h:21-27 `isSubset(A, B)` (arguments are copies, both sorted).
`BeliefBase::contains` and `isSubset(const BeliefBase&, const BeliefBase&)`
(src/BeliefBase.cpp:25-34) apply it to the two item lists. -/
def isSubset (A B : List ℤ) : Bool := stdIncludes (stdSort B) (stdSort A)

/-- src/itemsHelper.cpp:5-13 `findRelativeItem`. The `else` branch (line 11) constructs a
`std::domain_error` without throwing it, so control reaches `return 0` (line 12). -/
def findRelativeItem (item : ℤ) (items : List ℤ) : ℕ :=
  match items.findIdx? (· == item) with
  | some k => k
  | none => 0

/-- src/itemsHelper.cpp:15-23 `findRelativeItems`. -/
def findRelativeItems (subset items : List ℤ) : List ℕ :=
  subset.map fun i => findRelativeItem i items

/-- src/itemsHelper.cpp:25-34 `findItemsDifference` (loop 29-32 as a left fold). -/
def findItemsDifference (items subset : List ℤ) : List ℤ :=
  items.foldl (fun difference i =>
    if subset.find? (· == i) = none then difference ++ [i] else difference) []

/-- src/itemsHelper.cpp:36-49 `findItemsUnion`. -/
def findItemsUnion (items1 items2 : List ℤ) : List ℤ :=
  stdSetUnion (stdSort items1) (stdSort items2)

end Verif.Items
