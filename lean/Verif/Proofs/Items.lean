import Verif.Model.Items
import Mathlib.Tactic.Linarith
import Mathlib.Data.List.Nodup
import Mathlib.Data.List.Perm.Subperm

/-! Facts about the item-list helpers. -/
namespace Verif.Items

theorem mem_stdSort {l : List ℤ} {x : ℤ} : x ∈ stdSort l ↔ x ∈ l := by simp [stdSort]

theorem stdSort_perm (l : List ℤ) : (stdSort l).Perm l := List.perm_insertionSort _ l

theorem stdSort_sorted (l : List ℤ) : (stdSort l).Pairwise (· ≤ ·) :=
  List.pairwise_insertionSort _ l

theorem stdSort_strict {l : List ℤ} (h : l.Nodup) : (stdSort l).Pairwise (· < ·) := by
  have h1 := stdSort_sorted l
  have h2 : (stdSort l).Nodup := (stdSort_perm l).nodup_iff.mpr h
  exact (h1.and h2).imp fun {a b} hab => lt_of_le_of_ne hab.1 hab.2

theorem stdIncludes_iff : ∀ {bs as : List ℤ}, bs.Pairwise (· < ·) → as.Pairwise (· < ·) →
    (stdIncludes bs as = true ↔ ∀ x ∈ as, x ∈ bs)
  | bs, [], _, _ => by cases bs <;> simp [stdIncludes]
  | [], a :: as, _, _ => by
    simp only [stdIncludes, Bool.false_eq_true, false_iff]
    intro h
    exact absurd (h a (by simp)) (by simp)
  | b :: bs, a :: as, hb, ha => by
    have hb' := List.pairwise_cons.mp hb
    have ha' := List.pairwise_cons.mp ha
    rw [stdIncludes]
    split
    · rename_i h
      simp only [Bool.false_eq_true, false_iff]
      intro hall
      rcases List.mem_cons.mp (hall a (by simp)) with h1 | h1
      · omega
      · have := hb'.1 a h1; omega
    · split
      · rename_i h1 h2
        rw [stdIncludes_iff hb'.2 ha]
        constructor
        · intro h x hx; exact List.mem_cons_of_mem _ (h x hx)
        · intro h x hx
          rcases List.mem_cons.mp (h x hx) with h3 | h3
          · rcases List.mem_cons.mp hx with h4 | h4
            · omega
            · have := ha'.1 x h4; omega
          · exact h3
      · rename_i h1 h2
        have hab : a = b := by omega
        subst hab
        rw [stdIncludes_iff hb'.2 ha'.2]
        constructor
        · intro h x hx
          rcases List.mem_cons.mp hx with h3 | h3
          · simp [h3]
          · exact List.mem_cons_of_mem _ (h x h3)
        · intro h x hx
          rcases List.mem_cons.mp (h x (List.mem_cons_of_mem _ hx)) with h3 | h3
          · have := ha'.1 x hx; omega
          · exact h3

theorem isSubset_iff {A B : List ℤ} (hA : A.Nodup) (hB : B.Nodup) :
    isSubset A B = true ↔ ∀ x ∈ A, x ∈ B := by
  rw [isSubset, stdIncludes_iff (stdSort_strict hB) (stdSort_strict hA)]
  simp only [mem_stdSort]

theorem mem_stdSetUnion : ∀ {as bs : List ℤ} {x : ℤ},
    x ∈ stdSetUnion as bs ↔ x ∈ as ∨ x ∈ bs
  | [], bs, x => by simp [stdSetUnion]
  | a :: as, [], x => by simp [stdSetUnion]
  | a :: as, b :: bs, x => by
    rw [stdSetUnion]
    split
    · rw [List.mem_cons, mem_stdSetUnion]; simp only [List.mem_cons]; tauto
    · split
      · rw [List.mem_cons, mem_stdSetUnion]; simp only [List.mem_cons]; tauto
      · rename_i h1 h2
        have : a = b := by omega
        subst this
        rw [List.mem_cons, mem_stdSetUnion]; simp only [List.mem_cons]; tauto

theorem stdSetUnion_strict : ∀ {as bs : List ℤ}, as.Pairwise (· < ·) → bs.Pairwise (· < ·) →
    (stdSetUnion as bs).Pairwise (· < ·)
  | [], bs, _, hb => by simpa [stdSetUnion] using hb
  | a :: as, [], ha, _ => by simpa [stdSetUnion] using ha
  | a :: as, b :: bs, ha, hb => by
    have hb' := List.pairwise_cons.mp hb
    have ha' := List.pairwise_cons.mp ha
    rw [stdSetUnion]
    split
    · rename_i h
      refine List.pairwise_cons.mpr ⟨fun x hx => ?_, stdSetUnion_strict ha'.2 hb⟩
      rcases mem_stdSetUnion.mp hx with h1 | h1
      · exact ha'.1 x h1
      · rcases List.mem_cons.mp h1 with h2 | h2
        · omega
        · have := hb'.1 x h2; omega
    · split
      · rename_i h1 h
        refine List.pairwise_cons.mpr ⟨fun x hx => ?_, stdSetUnion_strict ha hb'.2⟩
        rcases mem_stdSetUnion.mp hx with h1 | h1
        · rcases List.mem_cons.mp h1 with h2 | h2
          · omega
          · have := ha'.1 x h2; omega
        · exact hb'.1 x h1
      · rename_i h1 h2
        have : a = b := by omega
        subst this
        refine List.pairwise_cons.mpr ⟨fun x hx => ?_, stdSetUnion_strict ha'.2 hb'.2⟩
        rcases mem_stdSetUnion.mp hx with h1 | h1
        · exact ha'.1 x h1
        · exact hb'.1 x h1

theorem mem_union {l1 l2 : List ℤ} {x : ℤ} :
    x ∈ findItemsUnion l1 l2 ↔ x ∈ l1 ∨ x ∈ l2 := by
  simp only [findItemsUnion, mem_stdSetUnion, mem_stdSort]

theorem union_strict {l1 l2 : List ℤ} (h1 : l1.Nodup) (h2 : l2.Nodup) :
    (findItemsUnion l1 l2).Pairwise (· < ·) :=
  stdSetUnion_strict (stdSort_strict h1) (stdSort_strict h2)

theorem nodup_of_strict {l : List ℤ} (h : l.Pairwise (· < ·)) : l.Nodup :=
  h.imp fun hab => ne_of_lt hab

theorem union_nodup {l1 l2 : List ℤ} (h1 : l1.Nodup) (h2 : l2.Nodup) :
    (findItemsUnion l1 l2).Nodup := nodup_of_strict (union_strict h1 h2)

theorem difference_fold (subset : List ℤ) : ∀ (items acc : List ℤ),
    items.foldl (fun difference i =>
      if subset.find? (· == i) = none then difference ++ [i] else difference) acc
      = acc ++ items.filter (fun i => decide (i ∉ subset))
  | [], acc => by simp
  | i :: is, acc => by
    rw [List.foldl_cons, difference_fold subset is]
    have hiff : subset.find? (· == i) = none ↔ i ∉ subset := by
      rw [List.find?_eq_none]
      constructor
      · intro h hi; exact h i hi (by simp)
      · intro h x hx hxi
        have : x = i := by simpa using hxi
        exact h (this ▸ hx)
    by_cases h : i ∈ subset
    · rw [if_neg (fun hc => hiff.mp hc h)]; simp [h]
    · rw [if_pos (hiff.mpr h)]; simp [h]

theorem difference_eq (items subset : List ℤ) :
    findItemsDifference items subset = items.filter (fun i => decide (i ∉ subset)) := by
  rw [findItemsDifference, difference_fold]; rfl

theorem relativeItem_getElem? {item : ℤ} {items : List ℤ} (h : item ∈ items) :
    items[findRelativeItem item items]? = some item ∧
      ∀ j < findRelativeItem item items, items[j]? ≠ some item := by
  unfold findRelativeItem
  rcases hk : items.findIdx? (· == item) with _ | k
  · rw [List.findIdx?_eq_none_iff] at hk
    simpa using hk item h
  · rw [List.findIdx?_eq_some_iff_getElem] at hk
    obtain ⟨hlt, h1, h2⟩ := hk
    refine ⟨?_, ?_⟩
    · simp only
      rw [List.getElem?_eq_getElem hlt]
      simpa using h1
    · intro j hj hc
      have hj' : j < items.length := lt_trans hj hlt
      have := h2 j hj
      rw [List.getElem?_eq_getElem hj'] at hc
      simp_all

theorem relativeItem_absent {item : ℤ} {items : List ℤ} (h : item ∉ items) :
    findRelativeItem item items = 0 := by
  unfold findRelativeItem
  have hk : items.findIdx? (· == item) = none := by
    rw [List.findIdx?_eq_none_iff]
    intro x hx
    have : x ≠ item := fun hc => h (hc ▸ hx)
    simpa using this
  rw [hk]

theorem relativeItem_lt {item : ℤ} {items : List ℤ} (h : item ∈ items) :
    findRelativeItem item items < items.length := by
  by_contra hc
  have := (relativeItem_getElem? h).1
  rw [List.getElem?_eq_none (by omega)] at this
  cases this

end Verif.Items
