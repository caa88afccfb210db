import Verif.Proofs.Reproduce
import Mathlib.Analysis.Calculus.FDeriv.Basic
import Mathlib.Algebra.MvPolynomial.Degrees
import Mathlib.Order.Bounds.Basic

/-!
# C91: the polynomials that the sparse grid reproduces
-/
namespace Verif.Reproduce

open Finset Verif.Spec Verif.SparseGrid Verif.BasisLevel Verif.Point Verif.NormalQuantile Verif.Counting
open scoped Topology

/-- The values of a polynomial at the points of the grid, read from the knots of the basis. -/
def gridValues (b : BasisI) (k : ℕ) {d : ℕ} (P : MvPolynomial (Fin d) ℝ) : Set ℝ :=
  {v | ∃ (lv ps : List ℕ) (x : Fin d → ℝ), IsGridPoint d k lv ps ∧
    (∀ t : Fin d, b.getKnot (lv.getD t 0) (ps.getD t 0) = Except.ok (x t)) ∧
    v = MvPolynomial.eval x P}

/-- The interpolant is the polynomial, capped at `B`, on `D`. -/
def Agrees (ar : Arith) (b : BasisI) (g : Grid) (D : Set ℝ) (B : ℝ) {d : ℕ}
    (P : MvPolynomial (Fin d) ℝ) : Prop :=
  ∀ x : Fin d → ℝ, (∀ t, x t ∈ D) →
    interpolate ar b g (List.ofFn x) = Except.ok (min (MvPolynomial.eval x P) B)

section
variable {Q : ℝ → ℝ} {k d : ℕ} {ar : Arith} {b : BasisI} {D : Set ℝ}

theorem ofFn_getD {z : List ℝ} (hz : z.length = d) : List.ofFn (fun t : Fin d => z.getD t 0) = z := by
  subst hz
  apply List.ext_getElem <;> simp

theorem zipWith_ofFn {κ : ℕ → ℕ → ℝ} {ls ps : List ℕ} (hg : IsGridPoint d k ls ps) :
    List.zipWith κ ls ps = List.ofFn (fun t : Fin d => κ (ls.getD t 0) (ps.getD t 0)) := by
  have h1 := hg.levels_length
  have h2 := hg.positions_length
  apply List.ext_getElem
  · simp [h1, h2]
  · intro i hi hi'
    have : i < d := by simpa using hi'
    simp [show i < ls.length by omega, show i < ps.length by omega]

/-- Both directions, for any arithmetic that suffices. -/
theorem reproduce_core (hQ : QuantileOk Q) (hk : 1 ≤ k) (hb : BasisOk b k D (kap Q k) (phi Q k))
    (ha : GridArOk ar d k)
    (hD : ∀ l p, l ≤ k → p < 2 ^ l → ∃ δ > 0, ∀ y, kap Q k l p ≤ y → y < kap Q k l p + δ → y ∈ D)
    (P : MvPolynomial (Fin d) ℝ) {fr : List ℝ → Res ℝ}
    (hfr : ∀ x : Fin d → ℝ, fr (List.ofFn x) = Except.ok (MvPolynomial.eval x P)) :
    ∃ g, construct ar b fr d k = Except.ok g ∧ g.d = d ∧ g.coefficients.length = numPts d k ∧
      IsGreatest (gridValues b k P) g.bound ∧
      ((∀ m ∈ P.support, Reproduced k m) → Agrees ar b g D g.bound P) ∧
      ((∃ v ∈ gridValues b k P, v ≠ g.bound) → Agrees ar b g D g.bound P →
        ∀ m ∈ P.support, Reproduced k m) := by
  have hh := hierarchical hQ hk
  obtain ⟨g, h1, h2, h3, h4, h5, n0, hn0, h6⟩ := SparseGrid.construct_ok hb hh ha
    (fun z => MvPolynomial.eval (fun t : Fin d => z.getD t 0) P) (fr := fr) (fun z hz => by
      rw [← hfr, ofFn_getD hz])
  have hval : ∀ n < numPts d k, MvPolynomial.eval
      (fun t : Fin d => (List.zipWith (kap Q k) (pt d n).1 (pt d n).2).getD t 0) P ∈ gridValues b k P := by
    intro n hn
    have hg := pt_isGridPoint hn
    refine ⟨_, _, _, hg, fun t => ?_, rfl⟩
    obtain ⟨g1, g2, -⟩ := gp_bounds hg t.2
    rw [hb.knot_ok _ _ g1 g2, zipWith_ofFn hg]
    simp
  have hval' : ∀ lv ps (x : Fin d → ℝ), IsGridPoint d k lv ps →
      (∀ t : Fin d, b.getKnot (lv.getD t 0) (ps.getD t 0) = Except.ok (x t)) →
      ∃ n < numPts d k, pt d n = (lv, ps) ∧ x = fun t : Fin d => kap Q k (lv.getD t 0) (ps.getD t 0) := by
    intro lv ps x hg hx
    obtain ⟨n, hn, e⟩ := exists_pt hg
    refine ⟨n, hn, e, ?_⟩
    funext t
    obtain ⟨g1, g2, -⟩ := gp_bounds hg t.2
    have := hx t
    rw [hb.knot_ok _ _ g1 g2] at this
    exact (Except.ok.inj this).symm
  refine ⟨g, h1, h2, h3, ⟨?_, ?_⟩, ?_, ?_⟩
  · rw [h6]; exact hval n0 hn0
  · rintro v ⟨lv, ps, x, hg, hx, rfl⟩
    obtain ⟨n, hn, e, rfl⟩ := hval' lv ps x hg hx
    have := h5 n hn
    rw [e, zipWith_ofFn hg] at this
    simpa using this
  · intro hP x hx
    obtain ⟨c, hc⟩ := poly_rep hQ hk P hP
    rw [interpolate_ok hb ha.1 h2 h3 (xOk_ofFn hx), ← hc x]
    congr 2
    have heq := coef_unique hb hh ha.1 (fun j => g.coefficients.getD j 0) c (by
      intro n hn
      rw [h4 n hn, zipWith_ofFn (pt_isGridPoint hn), hc]
      congr 1
      simp)
    exact sum_congr rfl fun j hj => by rw [heq j (mem_range.mp hj)]
  · rintro ⟨v, ⟨lv, ps, x0, hg, hx0, rfl⟩, hne⟩ hag
    obtain ⟨n, hn, e, rfl⟩ := hval' lv ps x0 hg hx0
    have hlt : MvPolynomial.eval (fun t : Fin d => kap Q k (lv.getD t 0) (ps.getD t 0)) P < g.bound := by
      refine lt_of_le_of_ne ?_ hne
      have := h5 n hn
      rw [e, zipWith_ofFn hg] at this
      simpa using this
    set x0 : Fin d → ℝ := fun t => kap Q k (lv.getD t 0) (ps.getD t 0) with hx0'
    have hcont : Continuous fun x : Fin d → ℝ => MvPolynomial.eval x P := MvPolynomial.continuous_eval P
    obtain ⟨δ, hδ, hball⟩ := Metric.isOpen_iff.mp (isOpen_lt hcont continuous_const) x0 hlt
    choose ε hε hpid using fun t : Fin d => pidx_right_all hQ hk (x0 t)
    choose η hη hdom using fun t : Fin d =>
      hD (lv.getD t 0) (ps.getD t 0) (gp_bounds hg t.2).1 (gp_bounds hg t.2).2.1
    obtain ⟨G, hG, hGe⟩ := local_poly (Q := Q) (k := k) (fun j => g.coefficients.getD j 0)
      (fun (t : Fin d) l => pidx (kfun Q k l) (nTot l) (x0 t))
    have hPG : P = G := by
      refine MvPolynomial.funext_set (fun t => Set.Ico (x0 t) (x0 t + min δ (min (ε t) (η t))))
        (fun t => Set.Ico_infinite (by
          have := lt_min hδ (lt_min (hε t) (hη t))
          linarith)) ?_
      intro x hx
      have hx1 : ∀ t, x0 t ≤ x t ∧ x t < x0 t + min δ (min (ε t) (η t)) := fun t => hx t trivial
      have hm : ∀ t, min δ (min (ε t) (η t)) ≤ δ ∧ min δ (min (ε t) (η t)) ≤ ε t ∧
          min δ (min (ε t) (η t)) ≤ η t := fun t =>
        ⟨min_le_left _ _, (min_le_right _ _).trans (min_le_left _ _),
          (min_le_right _ _).trans (min_le_right _ _)⟩
      have hxD : ∀ t, x t ∈ D := fun t => hdom t _ (hx1 t).1 (by
        have := (hx1 t).2
        have := (hm t).2.2
        show x t < x0 t + η t
        linarith)
      have hPlt : MvPolynomial.eval x P < g.bound := by
        apply hball
        rw [Metric.mem_ball, dist_pi_lt_iff hδ]
        intro t
        rw [Real.dist_eq, abs_of_nonneg (by linarith [(hx1 t).1])]
        linarith [(hx1 t).2, (hm t).1]
      have h := hag x hxD
      rw [interpolate_ok hb ha.1 h2 h3 (xOk_ofFn hxD), min_eq_left hPlt.le] at h
      have h' := Except.ok.inj h
      rw [hGe x (fun t l a b => hpid t (x t) (hx1 t).1 (by linarith [(hx1 t).2, (hm t).2.1]) l a b)] at h'
      rcases min_choice (MvPolynomial.eval x G) g.bound with hmin | hmin
      · rw [hmin] at h'; exact h'.symm
      · rw [hmin] at h'
        exact absurd h'.symm hPlt.ne
    rw [hPG]
    exact hG

end

/-- C91. With 32-bit arithmetic and the checks the SR method makes, the interpolant of a polynomial
whose monomials need levels that sum to at most `k` is that polynomial, capped at its greatest value on
the grid. -/
theorem c91_reproduces (Q : ℝ → ℝ) (hQ : IsNormalQuantile Q) (w k d : ℕ) (hw : 2 ≤ w)
    (hw2 : w ≤ 2147483645) (hc : complexityAccepted w k) (hk : 1 ≤ k) (hd : 0 < d) (hdw : d ≤ w)
    (P : MvPolynomial (Fin d) ℝ) (hP : ∀ m ∈ P.support, Reproduced k m) {fr : List ℝ → Res ℝ}
    (hfr : ∀ x : Fin d → ℝ, fr (List.ofFn x) = Except.ok (MvPolynomial.eval x P)) :
    ∃ ls g B, basisLevels i32 Q k = Except.ok ls ∧
      construct i32 (basis u32 ls) fr d k = Except.ok g ∧
      IsGreatest (gridValues (basis u32 ls) k P) B ∧
      Agrees i32 (basis u32 ls) g (Dom u32 Q k) B P := by
  have hL' : k ≤ 25 := le_trans (guard_bounds hw hc).2 (by norm_num)
  have hok := quantileOk hQ
  obtain ⟨ls, h1, -, -, h2, -⟩ := basis_32 hQ hk hL'
  obtain ⟨g, g1, -, -, g2, g3, -⟩ := reproduce_core hok hk h2 (gridArOk_i32 hw hw2 hc hd hdw)
    (fun l p hl hp => by
      have hlt := knot_lt_u32 hQ hk hL' hl (own_lt hp)
      refine ⟨tk Q k k 0 + 4294967296 * bandwidth Q k - kap Q k l p, by rw [kap]; linarith, ?_⟩
      intro y _ hy
      exact dom_u32 hok hk (by linarith)) P hfr
  exact ⟨ls, g, g.bound, h1, g1, g2, g3 hP⟩

/-- C91, exactly: for a polynomial that is not constant on the grid, the interpolant is the capped
polynomial if and only if every monomial is of that kind. -/
theorem c91_iff (Q : ℝ → ℝ) (hQ : IsNormalQuantile Q) (w k d : ℕ) (hw : 2 ≤ w)
    (hw2 : w ≤ 2147483645) (hc : complexityAccepted w k) (hk : 1 ≤ k) (hd : 0 < d) (hdw : d ≤ w)
    (P : MvPolynomial (Fin d) ℝ) {fr : List ℝ → Res ℝ}
    (hfr : ∀ x : Fin d → ℝ, fr (List.ofFn x) = Except.ok (MvPolynomial.eval x P)) :
    ∃ ls g B, basisLevels i32 Q k = Except.ok ls ∧
      construct i32 (basis u32 ls) fr d k = Except.ok g ∧
      IsGreatest (gridValues (basis u32 ls) k P) B ∧
      ((gridValues (basis u32 ls) k P).Nontrivial →
        (Agrees i32 (basis u32 ls) g (Dom u32 Q k) B P ↔ ∀ m ∈ P.support, Reproduced k m)) := by
  have hL' : k ≤ 25 := le_trans (guard_bounds hw hc).2 (by norm_num)
  have hok := quantileOk hQ
  obtain ⟨ls, h1, -, -, h2, -⟩ := basis_32 hQ hk hL'
  obtain ⟨g, g1, -, -, g2, g3, g4⟩ := reproduce_core hok hk h2 (gridArOk_i32 hw hw2 hc hd hdw)
    (fun l p hl hp => by
      have hlt := knot_lt_u32 hQ hk hL' hl (own_lt hp)
      refine ⟨tk Q k k 0 + 4294967296 * bandwidth Q k - kap Q k l p, by rw [kap]; linarith, ?_⟩
      intro y _ hy
      exact dom_u32 hok hk (by linarith)) P hfr
  exact ⟨ls, g, g.bound, h1, g1, g2, fun hn => ⟨g4 (hn.exists_ne _), g3⟩⟩

theorem powerLevel_le (a : ℕ) : powerLevel a ≤ a := by
  unfold powerLevel
  split
  · omega
  · split <;> omega

/-- Polynomials of total degree at most `k` and 3 have only reproduced monomials. -/
theorem reproduced_of_degree {d k : ℕ} (P : MvPolynomial (Fin d) ℝ) (h : P.totalDegree ≤ min k 3) :
    ∀ m ∈ P.support, Reproduced k m := by
  intro m hm
  have h1 : ∑ t, m t ≤ min k 3 := by
    have := (MvPolynomial.le_totalDegree hm).trans h
    rwa [Finsupp.sum_fintype _ _ (fun _ => rfl)] at this
  refine ⟨fun t => ?_, (sum_le_sum fun t _ => powerLevel_le (m t)).trans (h1.trans (min_le_left _ _))⟩
  exact (single_le_sum (f := fun t => m t) (fun _ _ => Nat.zero_le _) (mem_univ t)).trans
    (h1.trans (min_le_right _ _))

/-- C91. In particular a sparse grid of level 3 or more reproduces every cubic polynomial, whatever
the dimension. -/
theorem c91_cubic (Q : ℝ → ℝ) (hQ : IsNormalQuantile Q) (w k d : ℕ) (hw : 2 ≤ w)
    (hw2 : w ≤ 2147483645) (hc : complexityAccepted w k) (hk : 3 ≤ k) (hd : 0 < d) (hdw : d ≤ w)
    (P : MvPolynomial (Fin d) ℝ) (hP : P.totalDegree ≤ 3) {fr : List ℝ → Res ℝ}
    (hfr : ∀ x : Fin d → ℝ, fr (List.ofFn x) = Except.ok (MvPolynomial.eval x P)) :
    ∃ ls g B, basisLevels i32 Q k = Except.ok ls ∧
      construct i32 (basis u32 ls) fr d k = Except.ok g ∧
      IsGreatest (gridValues (basis u32 ls) k P) B ∧
      Agrees i32 (basis u32 ls) g (Dom u32 Q k) B P :=
  c91_reproduces Q hQ w k d hw hw2 hc (by omega) hd hdw P
    (reproduced_of_degree P (le_min (hP.trans hk) hP)) hfr

/-- C91, derivatives: where the polynomial is below the cap, the gradient returned is its gradient and
the matrix returned holds its second derivatives. -/
theorem c91_derivatives (Q : ℝ → ℝ) (hQ : IsNormalQuantile Q) (w k d : ℕ) (hw : 2 ≤ w)
    (hw2 : w ≤ 2147483645) (hc : complexityAccepted w k) (hk : 1 ≤ k) (hd : 0 < d) (hdw : d ≤ w)
    (P : MvPolynomial (Fin d) ℝ) (hP : ∀ m ∈ P.support, Reproduced k m) {fr : List ℝ → Res ℝ}
    (hfr : ∀ x : Fin d → ℝ, fr (List.ofFn x) = Except.ok (MvPolynomial.eval x P)) :
    ∃ ls g B, basisLevels i32 Q k = Except.ok ls ∧
      construct i32 (basis u32 ls) fr d k = Except.ok g ∧
      IsGreatest (gridValues (basis u32 ls) k P) B ∧
      ∀ x : Fin d → ℝ, (∀ t, Dom u32 Q k ∈ 𝓝 (x t)) → MvPolynomial.eval x P < B →
        ∃ G H, interpolateDerivative i32 (basis u32 ls) g (List.ofFn x) = Except.ok G ∧
          interpolateSecondDerivative i32 (basis u32 ls) g (List.ofFn x) = Except.ok H ∧
          HasFDerivAt (fun y => MvPolynomial.eval y P)
            (∑ r : Fin d, G r • (ContinuousLinearMap.proj r : (Fin d → ℝ) →L[ℝ] ℝ)) x ∧
          ∀ s : Fin d, HasFDerivAt
            (fun y => fderiv ℝ (fun z : Fin d → ℝ => MvPolynomial.eval z P) y (Pi.single s 1))
            (∑ r : Fin d, H (r, s) • (ContinuousLinearMap.proj r : (Fin d → ℝ) →L[ℝ] ℝ)) x := by
  have hL' : k ≤ 25 := le_trans (guard_bounds hw hc).2 (by norm_num)
  have hok := quantileOk hQ
  have ha := gridArOk_i32 hw hw2 hc hd hdw
  obtain ⟨ls, h1, -, -, h2, h2'⟩ := basis_32 hQ hk hL'
  obtain ⟨g, g1, gd, gl, g2, g3, -⟩ := reproduce_core hok hk h2 ha
    (fun l p hl hp => by
      have hlt := knot_lt_u32 hQ hk hL' hl (own_lt hp)
      refine ⟨tk Q k k 0 + 4294967296 * bandwidth Q k - kap Q k l p, by rw [kap]; linarith, ?_⟩
      intro y _ hy
      exact dom_u32 hok hk (by linarith)) P hfr
  have hag := g3 hP
  have hgl : g.coefficients.length = (gridPoints d k).ncard := by rw [ncard_numPts]; exact gl
  have hcont : Continuous fun x : Fin d → ℝ => MvPolynomial.eval x P := MvPolynomial.continuous_eval P
  refine ⟨ls, g, g.bound, h1, g1, g2, ?_⟩
  have grad : ∀ x : Fin d → ℝ, (∀ t, Dom u32 Q k ∈ 𝓝 (x t)) → MvPolynomial.eval x P < g.bound →
      ∃ G, interpolateDerivative i32 (basis u32 ls) g (List.ofFn x) = Except.ok G ∧
        HasFDerivAt (fun y => MvPolynomial.eval y P)
          (∑ r : Fin d, G r • (ContinuousLinearMap.proj r : (Fin d → ℝ) →L[ℝ] ℝ)) x := by
    intro x hx hlt
    have hv := hag x (fun t => mem_of_mem_nhds (hx t))
    rw [min_eq_left hlt.le] at hv
    obtain ⟨G, hG, hG'⟩ := c08_gradient h2 h2' ha.1 g gd hgl x hx
      (fun t l p hl hp => (phi_deriv hok hk hl hp (x t)).1) _ hv hlt
    refine ⟨G, hG, hG'.congr_of_eventuallyEq ?_⟩
    filter_upwards [eventually_mem hx, (isOpen_lt hcont continuous_const).mem_nhds hlt] with y hy hy'
    rw [hag y hy, min_eq_left (le_of_lt hy')]
    rfl
  intro x hx hlt
  obtain ⟨G, hG, hG'⟩ := grad x hx hlt
  have hv := hag x (fun t => mem_of_mem_nhds (hx t))
  rw [min_eq_left hlt.le] at hv
  obtain ⟨H, hH, -, hH'⟩ := c08_hessian h2 h2' ha.1 g gd hgl x hx
    (fun t l p hl hp => (phi_deriv hok hk hl hp (x t)).1)
    (fun t l p hl hp => (phi_deriv hok hk hl hp (x t)).2) _ hv hlt
  refine ⟨G, H, hG, hH, hG', fun s => (hH' s).congr_of_eventuallyEq ?_⟩
  have hnn : ∀ᶠ y in 𝓝 x, ∀ t, Dom u32 Q k ∈ 𝓝 (y t) := by
    rw [Filter.eventually_all]
    intro t
    exact (continuous_apply t).continuousAt.eventually (eventually_mem_nhds_iff.mpr (hx t))
  filter_upwards [hnn, (isOpen_lt hcont continuous_const).mem_nhds hlt] with y hy hy'
  obtain ⟨Gy, hGy, hGy'⟩ := grad y hy hy'
  rw [hGy'.fderiv, hGy]
  simp [comp, ContinuousLinearMap.sum_apply, Pi.single_apply]

/-! ### Cases -/

theorem degree_example : ∀ m ∈ (MvPolynomial.X 0 ^ 2 * MvPolynomial.X 1 : MvPolynomial (Fin 2) ℝ).support,
    Reproduced 2 m := by
  intro m hm
  have e : (MvPolynomial.X 0 ^ 2 * MvPolynomial.X 1 : MvPolynomial (Fin 2) ℝ)
      = MvPolynomial.monomial (Finsupp.single 0 2 + Finsupp.single 1 1) 1 := by
    rw [MvPolynomial.X_pow_eq_monomial, MvPolynomial.X, MvPolynomial.monomial_mul, one_mul]
  rw [e] at hm
  have := MvPolynomial.support_monomial_subset hm
  rw [mem_singleton] at this
  subst this
  refine ⟨fun t => ?_, ?_⟩
  · fin_cases t <;> simp
  · simp [Fin.sum_univ_two, powerLevel]

/-- A cubic polynomial on a grid of level 2: all hypotheses hold. -/
example : ∃ Q, IsNormalQuantile Q ∧ ∃ ls g B, basisLevels i32 Q 2 = Except.ok ls ∧
    construct i32 (basis u32 ls) (fun z => Except.ok (z.getD 0 0 ^ 2 * z.getD 1 0)) 2 2 = Except.ok g ∧
    ∀ x : Fin 2 → ℝ, (∀ t, x t ∈ Dom u32 Q 2) →
      interpolate i32 (basis u32 ls) g (List.ofFn x) = Except.ok (min (x 0 ^ 2 * x 1) B) := by
  obtain ⟨Q, hQ⟩ := exists_quantile
  obtain ⟨ls, g, B, h1, h2, -, h3⟩ := c91_reproduces Q hQ 4 2 2 (by norm_num) (by norm_num)
    (by unfold complexityAccepted; norm_num) (by norm_num) (by norm_num) (by norm_num) _ degree_example
    (fr := fun z => Except.ok (z.getD 0 0 ^ 2 * z.getD 1 0)) (fun x => by simp)
  exact ⟨Q, hQ, ls, g, B, h1, h2, fun x hx => by simpa using h3 x hx⟩

/-- The fourth power in one direction, on a grid of level 3, is not reproduced: the hypotheses of
`c91_iff` hold and both sides are false. -/
example : ∃ Q, IsNormalQuantile Q ∧ ∃ ls g B, basisLevels i32 Q 3 = Except.ok ls ∧
    construct i32 (basis u32 ls) (fun z => Except.ok (z.getD 0 0 ^ 4)) 1 3 = Except.ok g ∧
    (gridValues (basis u32 ls) 3 (MvPolynomial.X 0 ^ 4 : MvPolynomial (Fin 1) ℝ)).Nontrivial ∧
    ¬ Agrees i32 (basis u32 ls) g (Dom u32 Q 3) B (MvPolynomial.X 0 ^ 4 : MvPolynomial (Fin 1) ℝ) := by
  obtain ⟨Q, hQ⟩ := exists_quantile
  obtain ⟨ls, g, B, h1, h2, -, h3⟩ := c91_iff Q hQ 4 3 1 (by norm_num) (by norm_num)
    (by unfold complexityAccepted; norm_num) (by norm_num) (by norm_num) (by norm_num)
    (MvPolynomial.X 0 ^ 4) (fr := fun z => Except.ok (z.getD 0 0 ^ 4)) (fun x => by simp)
  obtain ⟨ls', h1', -, -, hb, -⟩ := basis_32 hQ (L := 3) (by norm_num) (by norm_num)
  obtain rfl : ls = ls' := Except.ok.inj (h1.symm.trans h1')
  have hv : ∀ l p, l ≤ 3 → p < 2 ^ l →
      kap Q 3 l p ^ 4 ∈ gridValues (basis u32 ls) 3 (MvPolynomial.X 0 ^ 4 : MvPolynomial (Fin 1) ℝ) := by
    intro l p hl hp
    refine ⟨[l], [p], fun _ => kap Q 3 l p, ⟨rfl, rfl, by simpa using hl, by simpa using hp⟩, ?_, by simp⟩
    intro t
    fin_cases t
    exact hb.knot_ok l p hl hp
  have e : kap Q 3 0 0 = tk Q 3 1 1 := kap_eq (by norm_num)
  have m1 := (tk_strictMono (quantileOk hQ) (L := 3) (l := 1) (by norm_num) (by norm_num)
    (show 0 < 1 by norm_num) (by decide)).2
  have m2 := (tk_strictMono (quantileOk hQ) (L := 3) (l := 1) (by norm_num) (by norm_num)
    (show 1 < 2 by norm_num) (by decide)).2
  have hn : (gridValues (basis u32 ls) 3 (MvPolynomial.X 0 ^ 4 : MvPolynomial (Fin 1) ℝ)).Nontrivial := by
    by_contra hcon
    rw [Set.not_nontrivial_iff] at hcon
    have q1 := hcon (hv 0 0 (by norm_num) (by norm_num)) (hv 1 0 (by norm_num) (by norm_num))
    have q2 := hcon (hv 0 0 (by norm_num) (by norm_num)) (hv 1 1 (by norm_num) (by norm_num))
    rw [e] at q1 q2
    have k0 : kap Q 3 1 0 = tk Q 3 1 0 := rfl
    have k2 : kap Q 3 1 1 = tk Q 3 1 2 := rfl
    rw [k0] at q1
    rw [k2] at q2
    rw [pow_eq_pow_iff_of_ne_zero (by norm_num)] at q1 q2
    rcases q1 with q1 | ⟨q1, -⟩ <;> rcases q2 with q2 | ⟨q2, -⟩ <;> linarith
  refine ⟨Q, hQ, ls, g, B, h1, h2, hn, fun h => ?_⟩
  have := ((h3 hn).mp h (Finsupp.single 0 4) (by
    rw [MvPolynomial.X_pow_eq_monomial, MvPolynomial.mem_support_iff]
    simp)).1 0
  simp at this

/-- Any cubic polynomial in four directions at the default level, for example one with all of them. -/
example : ∃ Q, IsNormalQuantile Q ∧ ∃ ls g B, basisLevels i32 Q 3 = Except.ok ls ∧
    construct i32 (basis u32 ls) (fun z => Except.ok (z.getD 0 0 * z.getD 1 0 * z.getD 2 0 - z.getD 3 0))
      4 3 = Except.ok g ∧
    ∀ x : Fin 4 → ℝ, (∀ t, x t ∈ Dom u32 Q 3) →
      interpolate i32 (basis u32 ls) g (List.ofFn x) = Except.ok (min (x 0 * x 1 * x 2 - x 3) B) := by
  obtain ⟨Q, hQ⟩ := exists_quantile
  obtain ⟨ls, g, B, h1, h2, -, h3⟩ := c91_cubic Q hQ 4 3 4 (by norm_num) (by norm_num)
    (by unfold complexityAccepted; norm_num) (by norm_num) (by norm_num) (by norm_num)
    (MvPolynomial.X 0 * MvPolynomial.X 1 * MvPolynomial.X 2 - MvPolynomial.X 3)
    (by
      refine (MvPolynomial.totalDegree_sub _ _).trans (max_le ?_ (by simp))
      refine (MvPolynomial.totalDegree_mul _ _).trans ?_
      refine (Nat.add_le_add (MvPolynomial.totalDegree_mul _ _) le_rfl).trans ?_
      simp)
    (fr := fun z => Except.ok (z.getD 0 0 * z.getD 1 0 * z.getD 2 0 - z.getD 3 0)) (fun x => by simp)
  exact ⟨Q, hQ, ls, g, B, h1, h2, fun x hx => by simpa using h3 x hx⟩

end Verif.Reproduce
