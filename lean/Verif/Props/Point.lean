import Verif.Proofs.PointRun
import Mathlib.Data.Set.Function

/-!
# C03: grid traversal and closed-form index
-/
namespace Verif.Point

open Verif.Counting Verif.Spec

/-- C03, first part. After advancing `i` times from the centre point (no failure possible) the
running counter is `i`, and rebuilding the point from its levels and positions alone — which
recomputes the index in closed form — gives the same point, in particular index `i`. -/
theorem c03_traversal_index (d : ℕ) (hd : 0 < d) (i : ℕ) :
    ∃ p, advanceN exactZ d i = Except.ok p ∧ p.index = i ∧
      ofLevels exactZ p.levels p.positions = Except.ok p ∧
      IsGridPoint d p.levelSum p.levels p.positions ∧ p.levels.sum = p.levelSum := by
  let B := i + 1 + ∑ s ∈ Finset.range (i + 1), need d s
  obtain ⟨ls, ps, h1, h2, h3, h4⟩ := advanceN_ok (B := B) (fits_exactZ _) hd i (by
    intro s hs
    have hle : s ≤ i := by
      have h2 : s ≤ 2 ^ s := Nat.lt_two_pow_self.le
      by_contra hcon
      have : below d (i + 1) ≤ below d s := below_mono d (by omega)
      have := (below_ge d i).1
      have : i < 2 ^ i := Nat.lt_two_pow_self
      omega
    have := Finset.single_le_sum (f := fun s => need d s) (fun _ _ => Nat.zero_le _)
      (Finset.mem_range.mpr (Nat.lt_succ_of_le hle))
    simp only [B, Nat.succ_eq_add_one] at this ⊢
    omega)
  have hne : ls ≠ [] := by
    intro h
    subst h
    simp at h2
    omega
  refine ⟨_, h1, rfl, ?_, ?_, rfl⟩
  · unfold ofLevels
    rw [setIndex_ok (B := need ls.length ls.sum) (fits_exactZ _) hne h3 le_rfl]
    simp only [res_ok_bind]
    rw [setLevelSum_ok (B := ls.sum) (fits_exactZ _) le_rfl, h4]
  · rw [isGridPoint_iff]
    exact ⟨h2, le_rfl, h3⟩

/-- The closed-form index of any grid point lies between the number of points of smaller
level sum and the number of points of at most its level sum. -/
theorem ofLevels_ok {ls ps : List ℕ} (hne : ls ≠ []) (hp : PosOk ls ps) :
    ofLevels exactZ ls ps = Except.ok ⟨rank ls ps, ls, ps, ls.sum⟩ := by
  unfold ofLevels
  rw [setIndex_ok (B := need ls.length ls.sum) (fits_exactZ _) hne hp le_rfl]
  simp only [res_ok_bind]
  rw [setLevelSum_ok (B := ls.sum) (fits_exactZ _) le_rfl]

/-- C03, second part. During the first `findNumGridPoints(d, k)` steps the traversal visits
exactly the points of level sum at most `k`, each exactly once. -/
theorem c03_traversal_bijection (d k : ℕ) (hd : 0 < d) :
    ∃ N : ℕ, findNumGridPoints exactZ d k = Except.ok (N : ℤ) ∧
      Set.BijOn
        (fun i => (advanceN exactZ d i).toOption.map fun p => (p.levels, p.positions))
        {i | i < N} (some '' gridPoints d k) := by
  refine ⟨gridCount d k, findNumGridPoints_exact hd k, ?_⟩
  set F : ℕ → Option (List ℕ × List ℕ) :=
    fun i => (advanceN exactZ d i).toOption.map fun p => (p.levels, p.positions) with hF
  have hrun : ∀ i, ∃ ls ps, F i = some (ls, ps) ∧ ls.length = d ∧ PosOk ls ps ∧ ls ≠ [] ∧
      rank ls ps = i := by
    intro i
    obtain ⟨p, h1, h2, h3, h4, h5⟩ := c03_traversal_index d hd i
    rw [isGridPoint_iff] at h4
    have hne : p.levels ≠ [] := by
      intro h
      rw [h] at h4
      simp at h4
      omega
    refine ⟨p.levels, p.positions, ?_, h4.1, h4.2.2, hne, ?_⟩
    · simp only [hF, h1]
      rfl
    · rw [ofLevels_ok hne h4.2.2] at h3
      have : (⟨rank p.levels p.positions, p.levels, p.positions, p.levels.sum⟩ : Pt).index
          = p.index := congrArg Pt.index (Except.ok.inj h3)
      rw [← h2, ← this]
  have hmaps : Set.MapsTo F {i | i < gridCount d k} (some '' gridPoints d k) := by
    intro i hi
    obtain ⟨ls, ps, h1, h2, h3, hne, h4⟩ := hrun i
    refine ⟨(ls, ps), ?_, h1.symm⟩
    have hb := rank_bounds hne h3
    rw [h4, h2] at hb
    change IsGridPoint d k ls ps
    rw [isGridPoint_iff]
    refine ⟨h2, ?_, h3⟩
    by_contra hcon
    have h5 := below_mono d (show k + 1 ≤ ls.sum by omega)
    rw [below_eq_gridCount] at h5
    have : i < gridCount d k := hi
    omega
  have hinj : Set.InjOn F {i | i < gridCount d k} := by
    intro i _ j _ hij
    obtain ⟨ls, ps, h1, _, _, _, h4⟩ := hrun i
    obtain ⟨ls', ps', h1', _, _, _, h4'⟩ := hrun j
    rw [h1, h1'] at hij
    simp only [Option.some.injEq, Prod.mk.injEq] at hij
    obtain ⟨rfl, rfl⟩ := hij
    omega
  refine ⟨hmaps, hinj, ?_⟩
  have hfin : (some '' gridPoints d k).Finite := (gridPoints_finite d k).image _
  have hcard : (some '' gridPoints d k).ncard = gridCount d k := by
    rw [Set.ncard_image_of_injective _ (Option.some_injective _), ncard_gridPoints d k hd]
  have hcard2 : (F '' {i | i < gridCount d k}).ncard = gridCount d k := by
    rw [hinj.ncard_image]
    have : {i | i < gridCount d k} = (Finset.range (gridCount d k) : Set ℕ) := by ext; simp
    rw [this, Set.ncard_coe_finset, Finset.card_range]
  have := Set.eq_of_subset_of_ncard_le hmaps.image_subset (by rw [hcard, hcard2]) hfin
  exact this.symm.subset

/-- C03, third part. The closed-form index is a bijection between the grid points of level
sum at most `k` and the storage slots `0, ..., findNumGridPoints(d, k) - 1`. -/
theorem c03_index_bijection (d k : ℕ) (hd : 0 < d) :
    ∃ N : ℕ, findNumGridPoints exactZ d k = Except.ok (N : ℤ) ∧
      Set.BijOn (fun x : List ℕ × List ℕ => (ofLevels exactZ x.1 x.2).toOption.map Pt.index)
        (gridPoints d k) {o | ∃ i : ℕ, i < N ∧ o = some (i : ℤ)} := by
  obtain ⟨N, hN, hm, hi, hs⟩ := c03_traversal_bijection d k hd
  refine ⟨N, hN, ?_⟩
  have hpt : ∀ x ∈ gridPoints d k, ∃ i p, i < N ∧ advanceN exactZ d i = Except.ok p ∧
      p.levels = x.1 ∧ p.positions = x.2 ∧ ofLevels exactZ x.1 x.2 = Except.ok p ∧
      p.index = (i : ℤ) := by
    intro x hx
    obtain ⟨i, hiN, h⟩ := hs ⟨x, hx, rfl⟩
    obtain ⟨p, h1, h2, h3, h4, h5⟩ := c03_traversal_index d hd i
    simp only [h1] at h
    have hx' : (p.levels, p.positions) = x := Option.some.inj h
    refine ⟨i, p, hiN, h1, by rw [← hx'], by rw [← hx'], by rw [← hx']; exact h3, h2⟩
  refine ⟨?_, ?_, ?_⟩
  · intro x hx
    obtain ⟨i, p, hiN, h1, h2, h3, h4, h5⟩ := hpt x hx
    exact ⟨i, hiN, by simp only [h4]; rw [← h5]; rfl⟩
  · intro x hx y hy hxy
    obtain ⟨i, p, hiN, h1, h2, h3, h4, h5⟩ := hpt x hx
    obtain ⟨j, q, hjN, g1, g2, g3, g4, g5⟩ := hpt y hy
    simp only [h4, g4] at hxy
    have hpq : p.index = q.index := Option.some.inj hxy
    have : i = j := by omega
    subst this
    rw [h1] at g1
    cases g1
    exact Prod.ext (h2.symm.trans g2) (h3.symm.trans g3)
  · rintro o ⟨i, hiN, rfl⟩
    obtain ⟨x, hx, hxi⟩ := hm (show i ∈ {i | i < N} from hiN)
    obtain ⟨p, h1, h2, h3, h4, h5⟩ := c03_traversal_index d hd i
    refine ⟨x, hx, ?_⟩
    simp only [h1] at hxi
    have : x = (p.levels, p.positions) := Option.some.inj hxi
    rw [this]
    simp only [h3]
    rw [← h2]
    rfl

/-- Step 53 of the three-dimensional traversal has levels (1,2,0) and positions (0,3,0). -/
example : advanceN exactZ 3 53
    = Except.ok { index := 53, levels := [1, 2, 0], positions := [0, 3, 0], levelSum := 3 } := by
  decide +kernel

end Verif.Point
