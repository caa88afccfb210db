import Verif.Proofs.GridDeriv
import Verif.Props.SparseGrid
import Mathlib.Analysis.Calculus.Deriv.Pow
import Mathlib.Analysis.Calculus.Deriv.Mul

/-!
# C08: derivatives of the interpolant
-/
namespace Verif.SparseGrid

open Finset Verif.Point Verif.Counting Verif.Spec Filter Topology

/-- The real value of a computation (0 if it fails). -/
noncomputable def val (r : Res ℝ) : ℝ := match r with
  | .ok v => v
  | .error _ => 0

/-- The components of a vector-valued computation (0 if it fails). -/
noncomputable def comp {K : Type} (r : Res (K → ℝ)) (key : K) : ℝ := match r with
  | .ok v => v key
  | .error _ => 0

section
variable {ar : Arith} {b : BasisI} {k d : ℕ} {D : Set ℝ} {κ : ℕ → ℕ → ℝ} {φ φ' φ'' : ℝ → ℕ → ℕ → ℝ}

theorem xOk_ofFn {y : Fin d → ℝ} (hy : ∀ t, y t ∈ D) : XOk D d (List.ofFn y) := by
  refine ⟨by simp, ?_⟩
  intro z hz
  rw [List.mem_ofFn] at hz
  obtain ⟨t, rfl⟩ := hz
  exact hy t

theorem eventually_mem {x : Fin d → ℝ} (hx : ∀ t, D ∈ 𝓝 (x t)) :
    ∀ᶠ y in 𝓝 x, ∀ t, y t ∈ D := by
  rw [eventually_all]
  intro t
  exact (continuous_apply t).continuousAt.eventually (hx t)

theorem interpolate_raw (hb : BasisOk b k D κ φ) (ha : ArOk ar d k) {g : Grid} (hgd : g.d = d)
    (hg : g.coefficients.length = numPts d k) (y : Fin d → ℝ) (hy : ∀ t, y t ∈ D) :
    interpolate ar b g (List.ofFn y) = Except.ok (min (raw g φ d k y) g.bound) :=
  interpolate_ok hb ha hgd hg (xOk_ofFn hy)

theorem interpolateDerivative_raw (hb : BasisOk b k D κ φ) (hb' : BasisDerivOk b k D φ' φ'')
    (ha : ArOk ar d k) {g : Grid} (hgd : g.d = d) (hg : g.coefficients.length = numPts d k)
    (y : Fin d → ℝ) (hy : ∀ t, y t ∈ D) (hlt : raw g φ d k y < g.bound) :
    ∃ G, interpolateDerivative ar b g (List.ofFn y) = Except.ok G ∧
      ∀ s < d, G s = rawGrad g φ φ' d k y s := by
  unfold interpolateDerivative
  rw [interpolate_raw hb ha hgd hg y hy]
  simp only [res_ok_bind]
  rw [if_pos (lt_of_le_of_lt (min_le_left _ _) hlt), accumulate_ok ha hgd hg
    (fun i hi => computeBasisDerivative_ok hb hb' (pt_isGridPoint hi) (xOk_ofFn hy))]
  refine ⟨_, rfl, ?_⟩
  intro s hs
  simp only [hs, if_true]
  rfl

theorem interpolateSecondDerivative_raw (hb : BasisOk b k D κ φ) (hb' : BasisDerivOk b k D φ' φ'')
    (ha : ArOk ar d k) {g : Grid} (hgd : g.d = d) (hg : g.coefficients.length = numPts d k)
    (y : Fin d → ℝ) (hy : ∀ t, y t ∈ D) (hlt : raw g φ d k y < g.bound) :
    ∃ H, interpolateSecondDerivative ar b g (List.ofFn y) = Except.ok H ∧
      ∀ r s, r < d → s < d → H (r, s) = rawHess g φ φ' φ'' d k y r s := by
  unfold interpolateSecondDerivative
  rw [interpolate_raw hb ha hgd hg y hy]
  simp only [res_ok_bind]
  have hV : ∀ i, ∃ V, i < numPts d k →
      computeBasisSecondDerivative b (st d i) (List.ofFn y) = Except.ok V ∧
      (∀ r s, r < d → s < d →
        V (r, s) = d2prod φ φ' φ'' d (List.ofFn y) (pt d i).1 (pt d i).2 r s) := by
    intro i
    by_cases hi : i < numPts d k
    · obtain ⟨V, h1, h2⟩ := computeBasisSecondDerivative_ok (i := (i : ℤ)) (s := (pt d i).1.sum)
        hb hb' (pt_isGridPoint hi) (x := List.ofFn y) (xOk_ofFn hy)
      exact ⟨V, fun _ => ⟨h1, h2⟩⟩
    · exact ⟨fun _ => 0, fun h => absurd h hi⟩
  choose V hV using hV
  rw [if_pos (lt_of_le_of_lt (min_le_left _ _) hlt), accumulate_ok ha hgd hg
    (fun i hi => (hV i hi).1)]
  refine ⟨_, rfl, ?_⟩
  intro r s hr hs
  simp only [rawHess]
  refine sum_congr rfl fun j hj => ?_
  rw [(hV j (mem_range.mp hj)).2 r s hr hs]

/-- C08. At every point where the interpolant is strictly below its bound, the basis
answers nearby, and the basis functions have the derivatives `φ'`, the reported gradient is the (Fréchet) derivative of the interpolant. -/
theorem c08_gradient (hb : BasisOk b k D κ φ) (hb' : BasisDerivOk b k D φ' φ'') (ha : ArOk ar d k)
    (g : Grid) (hgd : g.d = d) (hg : g.coefficients.length = (gridPoints d k).ncard)
    (x : Fin d → ℝ) (hx : ∀ t, D ∈ 𝓝 (x t))
    (hd : ∀ t l p, l ≤ k → p < 2 ^ l → HasDerivAt (fun y => φ y l p) (φ' (x t) l p) (x t))
    (v : ℝ) (hv : interpolate ar b g (List.ofFn x) = Except.ok v) (hlt : v < g.bound) :
    ∃ G, interpolateDerivative ar b g (List.ofFn x) = Except.ok G ∧
      HasFDerivAt (fun y : Fin d → ℝ => val (interpolate ar b g (List.ofFn y)))
        (∑ r : Fin d, G r • (ContinuousLinearMap.proj r : (Fin d → ℝ) →L[ℝ] ℝ)) x := by
  rw [ncard_numPts] at hg
  rw [interpolate_raw hb ha hgd hg x (fun t => mem_of_mem_nhds (hx t))] at hv
  have hraw : raw g φ d k x < g.bound := by
    by_contra hcon
    rw [min_eq_right (not_lt.mp hcon)] at hv
    injection hv with hv
    linarith
  obtain ⟨G, h1, h2⟩ := interpolateDerivative_raw hb hb' ha hgd hg x (fun t => mem_of_mem_nhds (hx t)) hraw
  refine ⟨G, h1, ?_⟩
  have hder := raw_hasFDerivAt (g := g) hd
  have hev : ∀ᶠ y in 𝓝 x, raw g φ d k y < g.bound :=
    hder.continuousAt.eventually (gt_mem_nhds hraw)
  have hsum : (∑ r : Fin d, G r • (ContinuousLinearMap.proj r : (Fin d → ℝ) →L[ℝ] ℝ))
      = ∑ r : Fin d, rawGrad g φ φ' d k x r •
        (ContinuousLinearMap.proj r : (Fin d → ℝ) →L[ℝ] ℝ) :=
    sum_congr rfl fun r _ => by rw [h2 r r.2]
  rw [hsum]
  refine hder.congr_of_eventuallyEq ?_
  filter_upwards [hev, eventually_mem hx] with y hy hyD
  rw [interpolate_raw hb ha hgd hg y hyD, min_eq_left hy.le]
  rfl

/-- C08. At every point where the interpolant is strictly below its bound, the basis
answers nearby, and the basis functions have derivatives `φ'` and `φ''`, the reported Hessian is the derivative of the reported gradient,
in every coordinate, and it is symmetric. -/
theorem c08_hessian (hb : BasisOk b k D κ φ) (hb' : BasisDerivOk b k D φ' φ'') (ha : ArOk ar d k)
    (g : Grid) (hgd : g.d = d) (hg : g.coefficients.length = (gridPoints d k).ncard)
    (x : Fin d → ℝ) (hx : ∀ t, D ∈ 𝓝 (x t))
    (hd : ∀ t l p, l ≤ k → p < 2 ^ l → HasDerivAt (fun y => φ y l p) (φ' (x t) l p) (x t))
    (hd' : ∀ t l p, l ≤ k → p < 2 ^ l → HasDerivAt (fun y => φ' y l p) (φ'' (x t) l p) (x t))
    (v : ℝ) (hv : interpolate ar b g (List.ofFn x) = Except.ok v) (hlt : v < g.bound) :
    ∃ H, interpolateSecondDerivative ar b g (List.ofFn x) = Except.ok H ∧
      (∀ r s, r < d → s < d → H (r, s) = H (s, r)) ∧
      ∀ s : Fin d, HasFDerivAt
        (fun y : Fin d → ℝ => comp (interpolateDerivative ar b g (List.ofFn y)) s)
        (∑ r : Fin d, H (r, s) • (ContinuousLinearMap.proj r : (Fin d → ℝ) →L[ℝ] ℝ)) x := by
  rw [ncard_numPts] at hg
  rw [interpolate_raw hb ha hgd hg x (fun t => mem_of_mem_nhds (hx t))] at hv
  have hraw : raw g φ d k x < g.bound := by
    by_contra hcon
    rw [min_eq_right (not_lt.mp hcon)] at hv
    injection hv with hv
    linarith
  obtain ⟨H, h1, h2⟩ := interpolateSecondDerivative_raw hb hb' ha hgd hg x (fun t => mem_of_mem_nhds (hx t)) hraw
  refine ⟨H, h1, ?_, ?_⟩
  · intro r s hr hs
    rw [h2 r s hr hs, h2 s r hs hr, rawHess, rawHess]
    exact sum_congr rfl fun j _ => by rw [d2prod_symm]
  · intro s
    have hder := rawGrad_hasFDerivAt (g := g) hd hd' s
    have hev : ∀ᶠ y in 𝓝 x, raw g φ d k y < g.bound :=
      (raw_hasFDerivAt (g := g) hd).continuousAt.eventually (gt_mem_nhds hraw)
    have hsum : (∑ r : Fin d, H (r, s) • (ContinuousLinearMap.proj r : (Fin d → ℝ) →L[ℝ] ℝ))
        = ∑ r : Fin d, rawHess g φ φ' φ'' d k x r s •
          (ContinuousLinearMap.proj r : (Fin d → ℝ) →L[ℝ] ℝ) :=
      sum_congr rfl fun r _ => by rw [h2 r s r.2 s.2]
    rw [hsum]
    refine hder.congr_of_eventuallyEq ?_
    filter_upwards [hev, eventually_mem hx] with y hy hyD
    obtain ⟨G, g1, g2⟩ := interpolateDerivative_raw hb hb' ha hgd hg y hyD hy
    rw [g1, comp, g2 s s.2]

/-- Where the interpolant is at its bound, both derivatives are reported as zero. -/
theorem c08_clamped_zero (g : Grid) (x : List ℝ)
    (v : ℝ) (hv : interpolate ar b g x = Except.ok v) (hge : g.bound ≤ v) :
    interpolateDerivative ar b g x = Except.ok (fun _ => 0) ∧
    interpolateSecondDerivative ar b g x = Except.ok (fun _ => 0) := by
  unfold interpolateDerivative interpolateSecondDerivative
  rw [hv]
  simp only [res_ok_bind]
  rw [if_neg (not_lt.mpr hge), if_neg (not_lt.mpr hge)]
  exact ⟨rfl, rfl⟩

end

/-- A smooth basis for the examples. -/
noncomputable def polyBasis : BasisI where
  getKnot l p := pure (2 ^ l + p)
  evaluate x l p := pure ((p + 1) * x ^ l)
  evaluateDerivative x l p := pure ((p + 1) * (l * x ^ (l - 1)))
  evaluateSecondDerivative x l p := pure ((p + 1) * (l * ((l - 1 : ℕ) * x ^ (l - 1 - 1))))

/-- The hypotheses of C08 are met: two directions, level 1, five coefficients. The interpolant is
`1 + 2 x + 6 x + 4 y + 10 y`, which is 12 at the point, below the bound 100. -/
example :
    ∃ G, interpolateDerivative exactZ polyBasis ⟨1, 2, [1, 2, 3, 4, 5], 100⟩ [1 / 2, 1 / 2]
        = Except.ok G ∧
      HasFDerivAt (fun y : Fin 2 → ℝ => val (interpolate exactZ polyBasis
          ⟨1, 2, [1, 2, 3, 4, 5], 100⟩ (List.ofFn y)))
        (∑ r : Fin 2, G r • (ContinuousLinearMap.proj r : (Fin 2 → ℝ) →L[ℝ] ℝ))
        ![1 / 2, 1 / 2] := by
  have hb : BasisOk polyBasis 1 Set.univ (fun l p => (2 : ℝ) ^ l + p) (fun x l p => (p + 1) * x ^ l) :=
    ⟨fun _ _ _ _ => rfl, fun _ _ _ _ => trivial, fun _ _ _ _ _ _ => rfl⟩
  have hb' : BasisDerivOk polyBasis 1 Set.univ (fun x l p => (p + 1) * (l * x ^ (l - 1)))
      (fun x l p => (p + 1) * (l * ((l - 1 : ℕ) * x ^ (l - 1 - 1)))) :=
    ⟨fun _ _ _ _ _ _ => rfl, fun _ _ _ _ _ _ => rfl⟩
  have hlen : numPts 2 1 = 5 := by
    simp [numPts, gridCount, Finset.sum_range_succ, Nat.choose]
  have hv := interpolate_raw (ar := exactZ) hb (arOk_exactZ 2 1)
    (g := ⟨1, 2, [1, 2, 3, 4, 5], 100⟩) rfl (by rw [hlen]; rfl) ![1 / 2, 1 / 2] (fun _ => trivial)
  have := c08_gradient hb hb' (arOk_exactZ 2 1) ⟨1, 2, [1, 2, 3, 4, 5], 100⟩ rfl
    (by rw [ncard_numPts, hlen]; rfl) ![1 / 2, 1 / 2] (fun _ => univ_mem)
    (fun t l p _ _ => HasDerivAt.const_mul _ (hasDerivAt_pow l _)) _ hv (by
      rw [min_lt_iff]
      left
      have p0 : pt 2 0 = ([0, 0], [0, 0]) := by decide
      have p1 : pt 2 1 = ([1, 0], [0, 0]) := by decide
      have p2 : pt 2 2 = ([1, 0], [1, 0]) := by decide
      have p3 : pt 2 3 = ([0, 1], [0, 0]) := by decide
      have p4 : pt 2 4 = ([0, 1], [0, 1]) := by decide
      simp [raw, hlen, Finset.sum_range_succ, tprod, Finset.prod_range_succ, p0, p1, p2, p3, p4]
      norm_num)
  simpa using this

end Verif.SparseGrid
