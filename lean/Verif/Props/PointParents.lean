import Verif.Proofs.PointParents
import Verif.Props.Point

/-!
# C04, C05: memory safety of the traversals and the parent traversal
-/
namespace Verif.Point

open Verif.Counting Verif.Spec

/-- Splitting a point at a direction. -/
theorem split_at {ls ps : List ℕ} {t : ℕ} (h : ls.length = ps.length) (ht : t < ls.length) :
    ∃ lpre l ls' ppre p ps', ls = lpre ++ l :: ls' ∧ ps = ppre ++ p :: ps' ∧
      lpre.length = t ∧ ppre.length = t := by
  refine ⟨ls.take t, ls[t], ls.drop (t + 1), ps.take t, ps[t], ps.drop (t + 1), ?_, ?_, ?_, ?_⟩
  · simp
  · simp
  · simp; omega
  · simp; omega

theorem set_append {α : Type _} (pre : List α) (x y : α) (xs : List α) {t : ℕ}
    (h : pre.length = t) : (pre ++ x :: xs).set t y = pre ++ y :: xs := by
  subst h
  simp

/-- C05. For a grid point `p` with level `L` in direction `t`, the parent loop (first parent,
then advance in direction `t` while the level in `t` is below `L`) ends after `2^L - 1`
iterations without failure, and the points it visits are, in this order, those with the
entries of direction `t` replaced by (level, position) for levels `0, ..., L-1` and, within a
level, positions `0, ..., 2^level - 1`; each visited point carries the closed-form index of
its levels and positions. -/
theorem c05_parent_traversal (d k : ℕ) (p : Pt) (hg : IsGridPoint d k p.levels p.positions)
    (t : ℕ) (ht : t < d) (L : ℕ) (hL : p.levels[t]? = some L) (fuel : ℕ) (hfuel : 2 ^ L ≤ fuel) :
    ∃ qs, parents exactZ p t fuel = Except.ok qs ∧
      qs.map (fun q => (q.levels, q.positions)) =
        ((List.range L).flatMap fun l => (List.range (2 ^ l)).map fun j =>
          (p.levels.set t l, p.positions.set t j)) ∧
      ∀ q ∈ qs, ofLevels exactZ q.levels q.positions = Except.ok q := by
  rw [isGridPoint_iff] at hg
  obtain ⟨hg1, hg2, hg3⟩ := hg
  obtain ⟨i, ls, ps, s⟩ := p
  simp only at *
  obtain ⟨lpre, l, ls', ppre, x, ps', rfl, rfl, h1, h2⟩ :=
    split_at hg3.length_eq (show t < ls.length by omega)
  obtain rfl : l = L := by
    subst h1
    simpa using hL
  have hl : lpre.length = ppre.length := h1.trans h2.symm
  subst h2
  refine ⟨_, parents_ok (B := need (lpre.length + 1 + ls'.length) (lpre ++ l :: ls').sum)
    (fits_exactZ _) lpre ls' ppre ps' l x hl hg3 le_rfl fuel hfuel, ?_, ?_⟩
  · unfold coarser
    simp only [set_append lpre l _ ls' h1, set_append ppre x _ ps' rfl]
    rw [List.map_map, List.map_flatMap]
    simp only [List.map_map]
    rfl
  · intro q hq
    rw [List.mem_map] at hq
    obtain ⟨y, hy, rfl⟩ := hq
    obtain ⟨hp1, hp2, hp3⟩ := (posOk_append hl).mp hg3
    rw [mem_coarser] at hy
    exact ofLevels_ok (by simp [mkPt]) ((posOk_append hl).mpr ⟨hp1, hy.2, hp3⟩)

/-- C05, as a set: the visited points are pairwise different and are exactly the grid points
that agree with the given one in all other directions and have a smaller level in `t`. -/
theorem c05_parents_exactly (d k : ℕ) (p : Pt) (hg : IsGridPoint d k p.levels p.positions)
    (t : ℕ) (ht : t < d) (L : ℕ) (hL : p.levels[t]? = some L) (fuel : ℕ) (hfuel : 2 ^ L ≤ fuel) :
    ∃ qs, parents exactZ p t fuel = Except.ok qs ∧
      (qs.map (fun q => (q.levels, q.positions))).Nodup ∧
      ∀ ls ps, (ls, ps) ∈ qs.map (fun q => (q.levels, q.positions)) ↔
        IsGridPoint d k ls ps ∧
        (∀ s, s ≠ t → ls[s]? = p.levels[s]? ∧ ps[s]? = p.positions[s]?) ∧
        (∃ l, ls[t]? = some l ∧ l < L) := by
  obtain ⟨qs, h1, h2, h3⟩ := c05_parent_traversal d k p hg t ht L hL fuel hfuel
  refine ⟨qs, h1, ?_, ?_⟩
  · rw [h2]
    have e : ((List.range L).flatMap fun l => (List.range (2 ^ l)).map fun j =>
          (p.levels.set t l, p.positions.set t j))
        = (coarser L).map fun x => (p.levels.set t x.1, p.positions.set t x.2) := by
      unfold coarser
      rw [List.map_flatMap]
      simp only [List.map_map]
      rfl
    rw [e]
    refine List.Nodup.map_on ?_ (coarser_nodup L)
    intro x _ y _ hxy
    simp only [Prod.mk.injEq] at hxy
    have ht1 : t < p.levels.length := by rw [hg.levels_length]; exact ht
    have ht2 : t < p.positions.length := by rw [hg.positions_length]; exact ht
    have e1 := congrArg (fun l : List ℕ => l[t]?) hxy.1
    have e2 := congrArg (fun l : List ℕ => l[t]?) hxy.2
    simp only [List.getElem?_set_self ht1, List.getElem?_set_self ht2, Option.some.injEq] at e1 e2
    exact Prod.ext e1 e2
  · intro ls ps
    rw [h2]
    simp only [List.mem_flatMap, List.mem_range, List.mem_map, Prod.mk.injEq]
    have ht1 : t < p.levels.length := by rw [hg.levels_length]; exact ht
    have ht2 : t < p.positions.length := by rw [hg.positions_length]; exact ht
    have hLt : p.levels[t] = L := by
      rw [List.getElem?_eq_getElem ht1] at hL
      exact Option.some.inj hL
    constructor
    · rintro ⟨l, hl, j, hj, rfl, rfl⟩
      refine ⟨⟨by simpa using hg.levels_length, by simpa using hg.positions_length, ?_, ?_⟩, ?_,
        ⟨l, by simp [ht1], hl⟩⟩
      · have h4 := hg.sum_le
        obtain ⟨lpre, l', ls', ppre, x, ps', e1, e2, e3, e4⟩ :=
          split_at (hg.levels_length.trans hg.positions_length.symm) ht1
        have : l' = L := by
          rw [e1] at hL
          subst e3
          simpa using hL
        rw [e1, set_append _ _ _ _ e3, sum_append_cons]
        rw [e1, sum_append_cons] at h4
        omega
      · intro s h1 h2
        simp only [List.getElem_set]
        split
        · exact hj
        · exact hg.pos_lt s (by simpa using h1) (by simpa using h2)
      · intro s hs
        simp [List.getElem?_set, Ne.symm hs]
    · rintro ⟨h4, h5, l, h6, h7⟩
      have ht3 : t < ls.length := by rw [h4.levels_length]; exact ht
      have ht4 : t < ps.length := by rw [h4.positions_length]; exact ht
      have e6 : ls[t] = l := by
        rw [List.getElem?_eq_getElem ht3] at h6
        exact Option.some.inj h6
      refine ⟨l, h7, ps[t], by rw [← e6]; exact h4.pos_lt t ht3 ht4, ?_, ?_⟩
      · apply List.ext_getElem?
        intro s
        rw [List.getElem?_set]
        split
        · rename_i hs
          subst hs
          simp [ht1, h6]
        · rename_i hs
          exact (h5 s (Ne.symm hs)).1.symm
      · apply List.ext_getElem?
        intro s
        rw [List.getElem?_set]
        split
        · rename_i hs
          subst hs
          simp [ht2]
        · rename_i hs
          exact (h5 s (Ne.symm hs)).2.symm

/-- Parents of the point with levels (1,2), positions (0,3) in direction 1. -/
example : (parents exactZ ⟨0, [1, 2], [0, 3], 3⟩ 1 4).toOption.map
      (List.map fun q => (q.index, q.levels, q.positions))
    = some [(1, [1, 0], [0, 0]), (9, [1, 1], [0, 0]), (11, [1, 1], [0, 1])] := by
  decide +kernel

/-- The hypotheses of `c05_parent_traversal` for that point. -/
example : IsGridPoint 2 3 [1, 2] [0, 3] := by
  refine ⟨rfl, rfl, by decide, ?_⟩
  intro t h1 h2
  have : t = 0 ∨ t = 1 := by simp at h1; omega
  rcases this with rfl | rfl <;> norm_num

/-- C04. In `d ≥ 1` dimensions every state reached by advancing from the centre is reached
without failure; `advance` and the whole parent loop of every direction succeed from it: no
out-of-range read or write (`ub` for `[]`/`back()`, an exception for `at`) and no loop running
past the end. -/
theorem c04_traversal_safe (d : ℕ) (hd : 0 < d) (n : ℕ) :
    ∃ p, advanceN exactZ d n = Except.ok p ∧
      (∃ p', advance exactZ p = Except.ok p') ∧
      ∀ t, t < d → ∃ L, p.levels[t]? = some L ∧
        ∃ qs, parents exactZ p t (2 ^ L) = Except.ok qs := by
  obtain ⟨p, h1, h2, h3, h4, h5⟩ := c03_traversal_index d hd n
  obtain ⟨p', g1, -⟩ := c03_traversal_index d hd (n + 1)
  refine ⟨p, h1, ⟨p', ?_⟩, ?_⟩
  · rw [advanceN, h1] at g1
    simpa using g1
  · intro t ht
    have ht1 : t < p.levels.length := by rw [h4.levels_length]; exact ht
    refine ⟨p.levels[t], by simp, ?_⟩
    obtain ⟨qs, hq, -⟩ := c05_parent_traversal d _ p h4 t ht p.levels[t] (by simp) _ le_rfl
    exact ⟨qs, hq⟩

/-- C04, the excluded case: in zero dimensions `advance` is undefined behaviour. -/
theorem c04_advance_zero_dim_ub : advance exactZ (center 0) = Res.ub := by decide

end Verif.Point
