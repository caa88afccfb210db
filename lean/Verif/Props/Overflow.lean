import Verif.Props.PointParents

/-!
# C55: the complexity limit keeps the grid arithmetic inside 32-bit integers
-/
namespace Verif.Point

open Finset Verif.Counting Verif.Spec

/-- The complexity check of the SR method (R/loglikelihood.R:52-58): the computation is
stopped when `width^(2 * nSL) > 5e5`. The comparison is exact (both sides are integers in the
range of doubles, or the left side overflows upwards). -/
def complexityAccepted (width nSL : ℕ) : Prop := width ^ (2 * nSL) ≤ 500000

theorem choose_le_pow' (n j : ℕ) : Nat.choose (n + j) j ≤ (n + 1) ^ j := by
  induction j with
  | zero => simp
  | succ j ih =>
    have h1 : Nat.choose (n + (j + 1)) (j + 1) * (j + 1) = Nat.choose (n + j) j * (n + j + 1) := by
      have := Nat.add_one_mul_choose_eq (n + j) j
      rw [← Nat.add_assoc, ← this]
      ring
    have h2 : n + j + 1 ≤ (n + 1) * (j + 1) := by nlinarith
    have h3 : Nat.choose (n + (j + 1)) (j + 1) * (j + 1)
        ≤ ((n + 1) ^ j * (n + 1)) * (j + 1) := by
      rw [h1, mul_assoc]
      exact Nat.mul_le_mul ih h2
    rw [pow_succ]
    exact Nat.le_of_mul_le_mul_right h3 (by omega)

theorem guard_bounds {w k : ℕ} (hw : 2 ≤ w) (h : complexityAccepted w k) : w ^ k ≤ 707 ∧ k ≤ 9 := by
  unfold complexityAccepted at h
  have h1 : w ^ k ≤ 707 := by
    by_contra hcon
    have : 708 * 708 ≤ w ^ k * w ^ k := Nat.mul_le_mul (by omega) (by omega)
    rw [← pow_add, ← two_mul] at this
    omega
  refine ⟨h1, ?_⟩
  by_contra hcon
  have h2 : 2 ^ 10 ≤ w ^ k := le_trans (Nat.pow_le_pow_right (by norm_num) (by omega))
    (Nat.pow_le_pow_left hw k)
  norm_num at h2
  omega

theorem need_le {w k d : ℕ} (hw : 2 ≤ w) (h : complexityAccepted w k) (hd : 0 < d) (hdw : d ≤ w)
    (hk : 0 < k) : need d k + d * Nat.choose (d - 1 + k) k ≤ 10000000 := by
  obtain ⟨h1, h2⟩ := guard_bounds hw h
  have hww : w ≤ w ^ k := Nat.le_self_pow (by omega) w
  have hc : ∀ j, j ≤ k → Nat.choose (d - 1 + j) j ≤ 707 := by
    intro j hj
    calc Nat.choose (d - 1 + j) j ≤ (d - 1 + 1) ^ j := choose_le_pow' _ _
      _ ≤ w ^ j := Nat.pow_le_pow_left (by omega) _
      _ ≤ w ^ k := Nat.pow_le_pow_right (by omega) hj
      _ ≤ 707 := h1
  have h2k : ∀ j, j ≤ k → 2 ^ j ≤ 707 := by
    intro j hj
    calc 2 ^ j ≤ w ^ j := Nat.pow_le_pow_left hw _
      _ ≤ w ^ k := Nat.pow_le_pow_right (by omega) hj
      _ ≤ 707 := h1
  have hb : below d (k + 1) ≤ (k + 1) * (707 * 707) := by
    unfold below
    have := Finset.sum_le_card_nsmul (range (k + 1))
      (fun j => Nat.choose (d - 1 + j) (d - 1) * 2 ^ j) (707 * 707) (by
        intro j hj
        have hj' : j ≤ k := by rw [mem_range] at hj; omega
        rw [Nat.choose_symm_add]
        exact Nat.mul_le_mul (hc j hj') (h2k j hj'))
    simpa using this
  have hck := hc k le_rfl
  unfold need
  rw [Nat.choose_symm_add]
  have m1 : k * Nat.choose (d - 1 + k) k ≤ 9 * 707 := Nat.mul_le_mul h2 hck
  have m2 : d * Nat.choose (d - 1 + k) k ≤ 707 * 707 := Nat.mul_le_mul (by omega) hck
  have m3 : (k + 1) * (707 * 707) ≤ 10 * (707 * 707) := Nat.mul_le_mul (by omega) le_rfl
  omega

/-- C55. If the complexity check passes for a cluster graph of width at least 2, then with real
32-bit `int` arithmetic every grid of dimension `1 ≤ d ≤ width` is sized without overflow, the
size is the number of grid points, every state of a traversal of the grid (including the one
step past the last point made by `hierarchize`) is the one of unbounded arithmetic, and the
parent loop of each of its points in each direction runs without overflow. -/
theorem c55_no_overflow (width nSL d : ℕ) (hw : 2 ≤ width) (hw2 : width ≤ 2147483645)
    (hc : complexityAccepted width nSL) (hd : 0 < d) (hdw : d ≤ width) :
    ∃ N : ℕ, findNumGridPoints i32 d nSL = Except.ok (N : ℤ) ∧ N = (gridPoints d nSL).ncard ∧
      (∀ n, n ≤ N → ∃ p, advanceN i32 d n = Except.ok p ∧ advanceN exactZ d n = Except.ok p) ∧
      (∀ n, n < N → ∀ p, advanceN i32 d n = Except.ok p → ∀ t, t < d →
        ∃ L, p.levels[t]? = some L ∧
        ∃ qs, parents i32 p t (2 ^ L) = Except.ok qs ∧
          parents exactZ p t (2 ^ L) = Except.ok qs) := by
  obtain ⟨B, hB⟩ : ∃ B : ℕ, (B : ℤ) = 2147483647 := ⟨2147483647, rfl⟩
  have hf : Fits i32 B := by rw [hB]; exact fits_i32
  have hBn : d + nSL + 1 ≤ B ∧ (d - 1) * Nat.choose (d - 1 + nSL) nSL ≤ B ∧ need d nSL ≤ B := by
    rcases Nat.eq_zero_or_pos nSL with rfl | hk
    · have e : need d 0 = d + 1 := by simp [need, below]
      simp only [Nat.choose_zero_right, mul_one, e]
      omega
    · have := need_le hw hc hd hdw hk
      have h2 : (d - 1) * Nat.choose (d - 1 + nSL) nSL ≤ d * Nat.choose (d - 1 + nSL) nSL :=
        Nat.mul_le_mul_right _ (by omega)
      have h3 : d + nSL ≤ need d nSL := by unfold need; omega
      omega
  obtain ⟨hB1, hB2, hB3⟩ := hBn
  have hN : gridCount d nSL ≤ B := by
    rw [← below_eq_gridCount]
    unfold need at hB3
    omega
  have hrun : ∀ n, n ≤ gridCount d nSL →
      ∃ p, advanceN i32 d n = Except.ok p ∧ advanceN exactZ d n = Except.ok p := by
    intro n hn
    have hcond : ∀ s, below d s < n → need d s ≤ B := by
      intro s hs
      refine le_trans (need_mono d ?_) hB3
      by_contra hcon
      have := below_mono d (show nSL + 1 ≤ s by omega)
      rw [below_eq_gridCount] at this
      omega
    obtain ⟨ls, ps, h1, h2, h3, h4⟩ := advanceN_ok hf hd n hcond
    obtain ⟨p, g1, g2, g3, g4, g5⟩ := c03_traversal_index d hd n
    obtain ⟨ls', ps', h1', h2', h3', h4'⟩ := advanceN_ok (fits_exactZ (B : ℤ)) hd n hcond
    -- both traversals are the same pure iteration
    have same : ∀ m, m ≤ n → advanceN i32 d m = advanceN exactZ d m := by
      intro m
      induction m with
      | zero => intro _; rfl
      | succ m ih =>
        intro hm
        have hc' : ∀ s, below d s < m → need d s ≤ B := fun s hs => hcond s (by omega)
        obtain ⟨ls, ps, k1, k2, k3, k4⟩ := advanceN_ok hf hd m hc'
        have k1' := k1
        rw [ih (by omega)] at k1'
        have hne : ls ≠ [] := by
          intro h
          subst h
          simp at k2
          omega
        have hb := rank_bounds hne k3
        rw [k4, k2] at hb
        have hneed : need d ls.sum ≤ B := hcond _ (by omega)
        have hge := below_ge d ls.sum
        unfold need at hneed
        rw [advanceN, advanceN, k1, k1']
        simp only [res_ok_bind]
        rw [advance_ok hf (i := m) hne k3 (by omega) (by omega) (by omega),
          advance_ok (fits_exactZ (B : ℤ)) (i := m) hne k3 (by omega) (by omega) (by omega)]
    exact ⟨_, h1, by rw [← same n le_rfl]; exact h1⟩
  refine ⟨gridCount d nSL, findNumGridPoints_ok hf hd nSL hB1 hB2 hN,
    (ncard_gridPoints d nSL hd).symm, hrun, ?_⟩
  intro n hn p hp t ht
  obtain ⟨p', hp1, hp2⟩ := hrun n hn.le
  rw [hp] at hp1
  cases hp1
  obtain ⟨q, g1, g2, g3, g4, g5⟩ := c03_traversal_index d hd n
  rw [hp2] at g1
  cases g1
  rw [isGridPoint_iff] at g4
  obtain ⟨g6, g7, g8⟩ := g4
  have hne : p.levels ≠ [] := by
    intro h
    rw [h] at g6
    simp at g6
    omega
  have hrank : rank p.levels p.positions = n := by
    rw [ofLevels_ok hne g8] at g3
    have : (⟨rank p.levels p.positions, p.levels, p.positions, p.levels.sum⟩ : Pt).index
        = p.index := congrArg Pt.index (Except.ok.inj g3)
    rw [← g2, ← this]
  have hsum : p.levels.sum ≤ nSL := by
    have hb := rank_bounds hne g8
    rw [hrank, g6] at hb
    by_contra hcon
    have := below_mono d (show nSL + 1 ≤ p.levels.sum by omega)
    rw [below_eq_gridCount] at this
    omega
  obtain ⟨i, ls, ps, s⟩ := p
  simp only at *
  obtain ⟨lpre, l, ls', ppre, x, ps', rfl, rfl, h1, h2⟩ :=
    split_at g8.length_eq (show t < ls.length by omega)
  have hl : lpre.length = ppre.length := h1.trans h2.symm
  subst h2
  have hlen : lpre.length + 1 + ls'.length = d := by
    rw [← g6]; simp; ring
  have hneed : need (lpre.length + 1 + ls'.length) (lpre ++ l :: ls').sum ≤ B := by
    rw [hlen]
    exact le_trans (need_mono d hsum) hB3
  refine ⟨l, by rw [← hl]; simp, _, parents_ok hf lpre ls' ppre ps' l x hl g8 hneed _ le_rfl, ?_⟩
  exact parents_ok (fits_exactZ (B : ℤ)) lpre ls' ppre ps' l x hl g8 hneed _ le_rfl

/-- Width 3, five sparse levels pass the check (`3^10 = 59049`). -/
example : complexityAccepted 3 5 ∧ 2 ≤ 3 := by
  unfold complexityAccepted
  norm_num

/-- Without the check overflow is real: for dimension 30 and level 30 (`30^60 > 5e5`) sizing
the grid is undefined behaviour. -/
example : findNumGridPoints i32 30 30 = Res.ub := by decide +kernel

end Verif.Point
