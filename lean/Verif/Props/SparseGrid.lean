import Verif.Proofs.GridHier
import Verif.Props.Overflow

/-!
# C06, C07: the stored interpolant
-/
namespace Verif.SparseGrid

open Finset Verif.Point Verif.Counting Verif.Spec

/-- The integer arithmetic `ar` computes the grid size and every traversal state exactly. -/
def GridArOk (ar : Arith) (d k : ℕ) : Prop :=
  ArOk ar d k ∧ findNumGridPoints ar d k = findNumGridPoints exactZ d k

theorem gridArOk_exactZ (d k : ℕ) : GridArOk exactZ d k := ⟨arOk_exactZ d k, rfl⟩

/-- Machine integers suffice when the complexity check of the SR method accepts. -/
theorem gridArOk_i32 {w k d : ℕ} (hw : 2 ≤ w) (hw2 : w ≤ 2147483645)
    (hc : complexityAccepted w k) (hd : 0 < d) (hdw : d ≤ w) : GridArOk i32 d k := by
  obtain ⟨B, hB⟩ : ∃ B : ℕ, (B : ℤ) = 2147483647 := ⟨2147483647, rfl⟩
  have hf : Fits i32 B := by rw [hB]; exact fits_i32
  have hBw : d + 2 ≤ B := by omega
  refine ⟨⟨B, hf, ?_⟩, ?_⟩
  · rcases Nat.eq_zero_or_pos k with rfl | hk
    · simp [need, below]
      omega
    · have := need_le hw hc hd hdw hk
      omega
  · obtain ⟨N, h1, h2, -⟩ := c55_no_overflow w k d hw hw2 hc hd hdw
    rw [h1, findNumGridPoints_exact hd, h2, ncard_gridPoints d k hd]

theorem findNum_eq (d k : ℕ) :
    findNumGridPoints exactZ d k = Except.ok (numPts d k : ℤ) := by
  rcases Nat.eq_zero_or_pos d with rfl | hd
  · simp [findNumGridPoints, numPts]
  · rw [findNumGridPoints_exact hd, numPts, if_neg (by omega)]

theorem xOk_grid {b : BasisI} {k : ℕ} {D : Set ℝ} {κ : ℕ → ℕ → ℝ}
    {φ : ℝ → ℕ → ℕ → ℝ} (hb : BasisOk b k D κ φ) {d : ℕ} {ls ps : List ℕ}
    (hg : IsGridPoint d k ls ps) : XOk D d (List.zipWith κ ls ps) := by
  refine ⟨by simp [hg.levels_length, hg.positions_length], ?_⟩
  intro y hy
  rw [List.mem_iff_getElem] at hy
  obtain ⟨t, ht, rfl⟩ := hy
  have ht' : t < d := by simpa [hg.levels_length, hg.positions_length] using ht
  obtain ⟨h1, h2, h3, h4⟩ := gp_bounds hg ht'
  have := hb.knot_mem _ _ h1 h2
  simpa [h3, h4] using this

/-- The function needs to return at the points of the grid only. -/
theorem construct_at {ar : Arith} {b : BasisI} {k : ℕ} {D : Set ℝ} {κ : ℕ → ℕ → ℝ}
    {φ : ℝ → ℕ → ℕ → ℝ} (hb : BasisOk b k D κ φ) (hh : Hierarchical k κ φ) {d : ℕ}
    (ha : GridArOk ar d k) (f : List ℝ → ℝ)
    {fr : List ℝ → Res ℝ} (hfr : ∀ ls ps, IsGridPoint d k ls ps →
      fr (List.zipWith κ ls ps) = Except.ok (f (List.zipWith κ ls ps))) :
    ∃ g, construct ar b fr d k = Except.ok g ∧ g.d = d ∧ g.coefficients.length = numPts d k ∧
      (∀ n < numPts d k, ∑ j ∈ range (numPts d k), g.coefficients.getD j 0
          * tprod φ d (List.zipWith κ (pt d n).1 (pt d n).2) (pt d j).1 (pt d j).2
        = f (List.zipWith κ (pt d n).1 (pt d n).2)) ∧
      (∀ n < numPts d k, f (List.zipWith κ (pt d n).1 (pt d n).2) ≤ g.bound) ∧
      ∃ n < numPts d k, g.bound = f (List.zipWith κ (pt d n).1 (pt d n).2) := by
  obtain ⟨cs, y, h1, h2, h3, h4, h5⟩ := initializeStorage_ok hb ha.1 f hfr
  obtain ⟨cs', k1, k2, k3⟩ := hierarchize_ok hb hh ha.1 cs h2
  refine ⟨⟨k, d, cs', y⟩, ?_, rfl, k2, ?_, h4, h5⟩
  · unfold construct
    rw [ha.2, findNum_eq]
    simp only [res_ok_bind, Int.toNat_natCast]
    rw [h1]
    simp only [res_ok_bind]
    rw [k1]
    rfl
  · intro n hn
    rw [k3 n hn, h3 n hn]

theorem construct_ok {ar : Arith} {b : BasisI} {k : ℕ} {D : Set ℝ} {κ : ℕ → ℕ → ℝ}
    {φ : ℝ → ℕ → ℕ → ℝ} (hb : BasisOk b k D κ φ) (hh : Hierarchical k κ φ) {d : ℕ}
    (ha : GridArOk ar d k) (f : List ℝ → ℝ)
    {fr : List ℝ → Res ℝ} (hfr : ∀ z, z.length = d → fr z = Except.ok (f z)) :
    ∃ g, construct ar b fr d k = Except.ok g ∧ g.d = d ∧ g.coefficients.length = numPts d k ∧
      (∀ n < numPts d k, ∑ j ∈ range (numPts d k), g.coefficients.getD j 0
          * tprod φ d (List.zipWith κ (pt d n).1 (pt d n).2) (pt d j).1 (pt d j).2
        = f (List.zipWith κ (pt d n).1 (pt d n).2)) ∧
      (∀ n < numPts d k, f (List.zipWith κ (pt d n).1 (pt d n).2) ≤ g.bound) ∧
      ∃ n < numPts d k, g.bound = f (List.zipWith κ (pt d n).1 (pt d n).2) :=
  construct_at hb hh ha f fun _ _ hg =>
    hfr _ (by simp [hg.levels_length, hg.positions_length])

/-- C06. For every function `f` (computed by `fr` without failure on vectors of length `d`), dimension `d`, level `k`, and every basis that answers for all
levels up to `k` (on a set `D` of reals containing its knots) and is hierarchical, the grid is built without failure and the interpolant
read at any grid point returns exactly `f` there. -/
theorem c06_interpolate_exact (ar : Arith) (b : BasisI) (k d : ℕ) (D : Set ℝ) (κ : ℕ → ℕ → ℝ)
    (φ : ℝ → ℕ → ℕ → ℝ) (hb : BasisOk b k D κ φ) (hh : Hierarchical k κ φ)
    (ha : GridArOk ar d k) (f : List ℝ → ℝ)
    {fr : List ℝ → Res ℝ} (hfr : ∀ z, z.length = d → fr z = Except.ok (f z)) :
    ∃ g, construct ar b fr d k = Except.ok g ∧
      ∀ ls ps, IsGridPoint d k ls ps →
        interpolate ar b g (List.zipWith κ ls ps) = Except.ok (f (List.zipWith κ ls ps)) := by
  obtain ⟨g, h1, h2, h3, h4, h5, -⟩ := construct_ok hb hh ha f hfr
  refine ⟨g, h1, ?_⟩
  intro ls ps hg
  obtain ⟨n, hn, hpt⟩ := exists_pt hg
  have h4' := h4 n hn
  have h5' := h5 n hn
  rw [hpt] at h4' h5'
  rw [interpolate_ok hb ha.1 h2 h3 (xOk_grid hb hg)]
  congr 1
  rw [h4']
  exact min_eq_left h5'

/-- C07. For every `f` (computed by `fr` as in C06) and every evaluation point (of the right length, with coordinates
where the basis answers), the value of
the interpolant is at most the largest value of `f` on the grid points, which is attained at a
grid point. -/
theorem c07_interpolate_le_max (ar : Arith) (b : BasisI) (k d : ℕ) (D : Set ℝ) (κ : ℕ → ℕ → ℝ)
    (φ : ℝ → ℕ → ℕ → ℝ) (hb : BasisOk b k D κ φ) (hh : Hierarchical k κ φ)
    (ha : GridArOk ar d k) (f : List ℝ → ℝ)
    {fr : List ℝ → Res ℝ} (hfr : ∀ z, z.length = d → fr z = Except.ok (f z)) :
    ∃ g, construct ar b fr d k = Except.ok g ∧
      ∃ ls ps, IsGridPoint d k ls ps ∧
        (∀ ls' ps', IsGridPoint d k ls' ps' →
          f (List.zipWith κ ls' ps') ≤ f (List.zipWith κ ls ps)) ∧
        ∀ x : List ℝ, x.length = d → (∀ y ∈ x, y ∈ D) →
          ∃ v, interpolate ar b g x = Except.ok v ∧ v ≤ f (List.zipWith κ ls ps) := by
  obtain ⟨g, h1, h2, h3, h4, h5, n, hn, h6⟩ := construct_ok hb hh ha f hfr
  refine ⟨g, h1, (pt d n).1, (pt d n).2, pt_isGridPoint hn, ?_, ?_⟩
  · intro ls' ps' hg
    obtain ⟨n', hn', hpt⟩ := exists_pt hg
    have := h5 n' hn'
    rw [hpt, h6] at this
    exact this
  · intro x hx hx'
    refine ⟨_, interpolate_ok hb ha.1 h2 h3 ⟨hx, hx'⟩, ?_⟩
    rw [← h6]
    exact min_le_right _ _

/-- A basis for the examples: distinct knots `2^l + p`, and functions that are 1 at their own
knot and decrease to 0 at the neighbouring integers (hat functions). -/
noncomputable def hatBasis : BasisI where
  getKnot l p := pure (2 ^ l + p)
  evaluate x l p := pure (max 0 (1 - |x - (2 ^ l + p)|))
  evaluateDerivative _ _ _ := Res.ub
  evaluateSecondDerivative _ _ _ := Res.ub

theorem hat_ok (k : ℕ) : BasisOk hatBasis k Set.univ (fun l p => (2 : ℝ) ^ l + p)
    (fun x l p => max 0 (1 - |x - (2 ^ l + p)|)) :=
  ⟨fun _ _ _ _ => rfl, fun _ _ _ _ => trivial, fun _ _ _ _ _ _ => rfl⟩

theorem hat_hierarchical (k : ℕ) : Hierarchical k (fun l p => (2 : ℝ) ^ l + p)
    (fun x l p => max 0 (1 - |x - (2 ^ l + p)|)) := by
  refine ⟨fun l p _ _ => by simp, ?_⟩
  intro l p l' p' _ hp' hle hp hne
  have hne' : 2 ^ l + p ≠ 2 ^ l' + p' := by
    intro heq
    rcases Nat.lt_or_ge l l' with h | h
    · have : 2 ^ (l + 1) ≤ 2 ^ l' := Nat.pow_le_pow_right (by norm_num) h
      rw [pow_succ] at this
      omega
    · have : l = l' := by omega
      subst this
      exact hne (by simp; omega)
  have h1 : (1 : ℝ) ≤ |((2 : ℝ) ^ l + p) - (2 ^ l' + p')| := by
    have hz : (2 ^ l + p : ℤ) - (2 ^ l' + p') ≠ 0 := by
      intro h
      apply hne'
      have : ((2 ^ l + p : ℕ) : ℤ) = ((2 ^ l' + p' : ℕ) : ℤ) := by push_cast; linarith
      exact_mod_cast this
    have := Int.one_le_abs hz
    exact_mod_cast this
  exact max_eq_left (by linarith)

/-- The hypotheses of C06 and C07 are met: hat functions, 3 directions, level 4, 32-bit
integers, and `f` arbitrary. -/
example (f : List ℝ → ℝ) :
    ∃ g, construct i32 hatBasis (fun z => Except.ok (f z)) 3 4 = Except.ok g ∧
      interpolate i32 hatBasis g [2 ^ 2 + 3, 2 ^ 0 + 0, 2 ^ 1 + 1] =
        Except.ok (f [2 ^ 2 + 3, 2 ^ 0 + 0, 2 ^ 1 + 1]) := by
  have ha : GridArOk i32 3 4 := gridArOk_i32 (w := 5) (by norm_num) (by norm_num)
    (by unfold complexityAccepted; norm_num) (by norm_num) (by norm_num)
  obtain ⟨g, h1, h2⟩ := c06_interpolate_exact i32 hatBasis 4 3 Set.univ _ _ (hat_ok 4)
    (hat_hierarchical 4) ha f (fun _ _ => rfl)
  refine ⟨g, h1, ?_⟩
  have := h2 [2, 0, 1] [3, 0, 1] ⟨rfl, rfl, by norm_num, by
    intro t h1 h2
    match t, h1 with
    | 0, _ => simp
    | 1, _ => simp
    | 2, _ => simp⟩
  simpa using this

example (f : List ℝ → ℝ) := c07_interpolate_le_max exactZ hatBasis 4 3 Set.univ _ _ (hat_ok 4)
  (hat_hierarchical 4) (gridArOk_exactZ 3 4) f
  (fr := fun z => Except.ok (f z)) fun _ _ => rfl

end Verif.SparseGrid
