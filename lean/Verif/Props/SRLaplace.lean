import Verif.Proofs.SRLaplace
import Verif.Proofs.GaussInt
import Verif.Props.SRApprox
import Verif.Props.Lfun

/-!
# C83: with `nSL = 0` sequential reduction is the Laplace approximation
-/
namespace Verif.SR

open Verif.Gauss Verif.Belief Verif.ClusterGraph Verif.Store Verif.Pars Verif.Split
open Verif.Split.Spec Verif.GLMM Verif.Family Verif.SparseGrid Verif.Point
open ProbabilityTheory Matrix

variable {q n p : ℕ}

/-! ## Specification -/

/-- Logarithm of the joint density of the responses and the random effects. `L y w` is the
log-likelihood of one observation as a function of the linear predictor. -/
noncomputable def jointLog (L : ℝ → ℝ → ℝ → ℝ) (M : ModFr q n p) (theta beta : List ℝ)
    (u : Fin q → ℝ) : ℝ :=
  logLikGiven L M theta beta u + ∑ r, Real.log (gaussianPDFReal 0 1 (u r))

/-- The Laplace approximation to the logarithm of the integral of `exp h`, with the quadratic
expansion at `mean` whose gradient is zero and whose Hessian is `-Q`. -/
noncomputable def laplace (h : (Fin q → ℝ) → ℝ) (mean : Fin q → ℝ)
    (Q : Matrix (Fin q) (Fin q) ℝ) : ℝ :=
  Real.log (∫ u : Fin q → ℝ, Real.exp (h mean - 1 / 2 * ((u - mean) ⬝ᵥ (Q *ᵥ (u - mean)))))

/-- What is left of `BasisLevel(0, 0)` if the undefined conversion of `0 / 0` to an integer in
src/BasisLevel.cpp:79-90 gives any number: the single knot is that number times the zero bandwidth. -/
def CentreLevel (b : BasisLevel.Level) : Prop := b.level = 0 ∧ b.knots = [0]

theorem laplace_eq (h : (Fin q → ℝ) → ℝ) (mean : Fin q → ℝ) {Q : Matrix (Fin q) (Fin q) ℝ}
    (hQ : Q.PosDef) :
    laplace h mean Q = h mean + q * Real.log (√(2 * Real.pi)) - 1 / 2 * Real.log Q.det := by
  have hd := hQ.det_pos
  have e : ∀ u : Fin q → ℝ, Real.exp (h mean - 1 / 2 * ((u - mean) ⬝ᵥ (Q *ᵥ (u - mean)))) =
      Real.exp (h mean) * Real.exp (-0.5 * quad mean Q u) := by
    intro u
    rw [← Real.exp_add, quad]
    congr 1
    ring
  have s : 0 < √(2 * Real.pi) := Real.sqrt_pos.2 (by positivity)
  rw [laplace]
  simp only [e]
  rw [MeasureTheory.integral_const_mul, gaussian_integral hQ, Real.log_mul (Real.exp_ne_zero _)
    (by positivity), Real.log_exp, Real.log_mul (by positivity) (by positivity), Real.log_pow,
    Real.log_inv, Real.log_sqrt hd.le]
  ring

/-! ## The parts -/

theorem gridArOk_level0 {d : ℕ} (hd : d ≤ 46341) : GridArOk i32 d 0 := by
  rcases Nat.eq_zero_or_pos d with rfl | h
  · refine ⟨⟨2147483647, fits_i32, by simp [need, below]⟩, rfl⟩
  · exact gridArOk_i32 (w := d + 1) (by omega) (by omega) (by simp [complexityAccepted]) h (by omega)

theorem centreGrid_of {lib : Lib} {pars : Parameters} {b : BasisLevel.Level} (hb : CentreLevel b)
    (hp : pars.sparseBasis = ⟨[b], 0⟩) (har : lib.ar = exactZ ∨ lib.ar = i32 ∧ q ≤ 46341) :
    CentreGrid lib pars fun x => 0 ≤ x ∧ x < q := by
  obtain ⟨h1, h2⟩ := hb
  refine ⟨⟨?_, ?_⟩, by rw [hp]; rfl, fun l hn hl => ?_⟩
  · show (BasisLevel.basis lib.aru pars.sparseBasis.basisLevels).getKnot 0 0 = _
    rw [hp]
    show b.getKnot 0 = _
    rw [BasisLevel.Level.getKnot, h2]
    rfl
  · show (BasisLevel.basis lib.aru pars.sparseBasis.basisLevels).evaluate 0 0 0 = _
    rw [hp]
    show b.evaluate lib.aru 0 0 = _
    have e : b.findIntervalId lib.aru 0 = Except.ok 0 := by
      rw [BasisLevel.Level.findIntervalId, h2]
      show (if (0 : ℝ) > 0 then _ else _) = _
      rw [if_neg (lt_irrefl _)]
      rfl
    rw [BasisLevel.Level.evaluate, e]
    simp only [res_ok_bind]
    rw [if_neg (by omega)]
    rfl
  · rcases har with h | ⟨h, hq⟩
    · rw [h]
      exact gridArOk_exactZ _ _
    · rw [h]
      refine gridArOk_level0 (le_trans ?_ hq)
      have : l.toFinset ⊆ Finset.univ.image fun i : Fin q => ((i : ℕ) : ℤ) := by
        intro x hx
        obtain ⟨g0, g1⟩ := hl x (List.mem_toFinset.mp hx)
        exact Finset.mem_image.mpr ⟨⟨x.toNat, by omega⟩, Finset.mem_univ _, by simp [g0]⟩
      have := (Finset.card_le_card this).trans Finset.card_image_le
      rwa [List.toFinset_card_of_nodup hn, Finset.card_univ, Fintype.card_fin] at this

/-- The rule with one point that the package makes. -/
theorem rule_one {eig : Eigensolver}
    (h : Quad.IsEigen (Quad.hermiteJacobi 1) (eig 1 (Quad.hermiteJacobi 1)).1
      (eig 1 (Quad.hermiteJacobi 1)).2) :
    QuadratureRule.create eig 1 = Except.ok ⟨[0], [Quad.sqrtPi]⟩ := by
  show Except.ok _ = Except.ok _
  congr 1
  set V := (eig 1 (Quad.hermiteJacobi 1)).2
  set l := (eig 1 (Quad.hermiteJacobi 1)).1
  have h1 : V 0 0 * V 0 0 = 1 := by
    have := congrFun (congrFun h.orthogonal 0) 0
    rw [Matrix.mul_apply, Matrix.one_apply_eq] at this
    simpa using this
  have h2 : V 0 0 * l 0 = 0 := by
    have := congrFun (congrFun h.decomposition 0) 0
    rw [Matrix.mul_diagonal, Matrix.mul_apply] at this
    simpa [Quad.fromLower, Quad.hermiteJacobi] using this.symm
  have h3 : l 0 = 0 := by
    rcases mul_eq_zero.mp h2 with h | h
    · rw [h, mul_zero] at h1
      exact absurd h1 zero_ne_one
    · exact h
  have e1 : List.ofFn (Quad.ofEigen l V).nodes = [0] := by
    simp [Quad.ofEigen, h3]
  have e2 : List.ofFn (Quad.ofEigen l V).weights = [Quad.sqrtPi] := by
    simp [Quad.ofEigen, mul_assoc, h1]
  exact congrArg₂ QuadratureRule.mk e1 e2

theorem centreRule_one : CentreRule (⟨[0], [Quad.sqrtPi]⟩ : QuadratureRule) Quad.sqrtPi :=
  ⟨rfl, by simp, by simp, by rw [Quad.sqrtPi]; norm_num⟩

variable {lib : Lib} {pars : Parameters} {μ : ℝ → ℝ} {M : ModFr q n p}

/-- The beliefs of a model add up to the log joint density. -/
theorem beliefs_value {link : String} (hl : IsLink link μ)
    (hfam : Family.ofNames "binomial" link = Except.ok pars.family)
    (hM : WellFormed M pars.theta.length) (hc : Covered M) (hb : pars.beta.length = p)
    {ext : List (List (Fin q) × List (Fin n))}
    (h : findFactorizationTerms M = Except.ok
      ((ext.map fun e => Term.glmm e.1 e.2.length (findLocalTerm e.1 e.2 M)) ++
          (List.finRange q).map (fun i => Term.normal i 0 1)))
    {bs : List (Mixed Factor NB)} (hm : List.Forall₂ (Made lib pars μ)
      ((ext.map fun e => Term.glmm e.1 e.2.length (findLocalTerm e.1 e.2 M)) ++
          (List.finRange q).map (fun i => Term.normal i 0 1)) bs) (a : ℤ → ℝ) :
    (bs.map fun b => val lib pars b a).sum =
      jointLog (logLikClamped μ) M pars.theta pars.beta (fun i => a i) + q * literalError := by
  obtain ⟨terms, vs, L, g1, g2, g3, g4⟩ := c41_coded hl hfam hM hc hb fun i : Fin q => a i
  rw [h] at g1
  cases Except.ok.inj g1
  rw [family_clamped hl hfam] at g3
  have hL : logLikGiven (logLikClamped μ) M pars.theta pars.beta (fun i => a i) = L :=
    Except.ok.inj g3
  rw [jointLog, hL, ← g4]
  have hrep : ∀ t ∈ ((ext.map fun e => Term.glmm e.1 e.2.length (findLocalTerm e.1 e.2 M)) ++
      (List.finRange q).map (fun i => Term.normal i 0 1)),
      Evaluates pars (fun i : Fin q => a i) t (termValue μ pars t a) := fun t ht =>
    (represents_term hl hfam hM hb ht).2 a
  generalize ((ext.map fun e => Term.glmm e.1 e.2.length (findLocalTerm e.1 e.2 M)) ++
      (List.finRange q).map (fun i => Term.normal i 0 1)) = ts at hm g2 hrep
  have hv : bs.map (fun b => val lib pars b a) = ts.map fun t => termValue μ pars t a := by
    clear g2 hrep
    induction hm with
    | nil => rfl
    | cons h1 _ ih =>
      rw [List.map_cons, List.map_cons, ih]
      congr 1
      exact h1.value a
  rw [hv]
  congr 1
  refine forall₂_unique (pars := pars) (u := fun i : Fin q => a i) ?_ g2
  rw [List.forall₂_map_right_iff, List.forall₂_same]
  exact hrep

theorem log_ratio : |Real.log (Quad.sqrtPi / Real.sqrt Real.pi)| ≤ 2e-10 := by
  have h := abs_lt.1 Quad.c25_constant
  have h0 : 0 < Quad.sqrtPi / Real.sqrt Real.pi := by linarith [h.1, (by norm_num : (1e-10 : ℝ) < 1)]
  rw [abs_le]
  constructor
  · have h1 := Real.one_sub_inv_le_log_of_pos h0
    have h2 : (Quad.sqrtPi / Real.sqrt Real.pi)⁻¹ ≤ 1 + 2e-10 := by
      rw [inv_le_comm₀ h0 (by norm_num)]
      have : (1 + 2e-10 : ℝ)⁻¹ ≤ 1 - 1e-10 := by norm_num
      linarith [h.1]
    linarith
  · have h1 := Real.log_le_sub_one_of_pos h0
    have : (1e-10 : ℝ) ≤ 2e-10 := by norm_num
    linarith [h.2]

/-! ## C83 -/

/-- C83. With one quadrature point and grids of level 0, for any model all whose observations have a
random effect, and a normal approximation whose precision is zero between random effects that no
observation shares: the cluster graph can be made, and `computeLogNormalizingConstant` returns the
Laplace approximation to the log-likelihood made from the mean and the precision of the normal
approximation (up to the errors of two literals, at most 1e-9 for each random effect), whatever the
order of elimination; or it raises the exception for improper beliefs.
What is missing: creating the coded basis of level 0 is undefined behaviour
(`BasisLevel.c10_level0_ub`); here it is what remains if the undefined conversion gives any number. A
normalizing constant that is exactly zero is excluded by `NoZeroNormalizer`. -/
theorem c83_partial {link : String} (hl : IsLink link μ)
    (hfam : Family.ofNames "binomial" link = Except.ok pars.family)
    (hM : WellFormed M pars.theta.length) (hc : Covered M)
    (hb : pars.beta.length = p) (hrd : Reads lib.rd M)
    (har : lib.ar = exactZ ∨ lib.ar = i32 ∧ q ≤ 46341)
    {level : BasisLevel.Level} (hlev : CentreLevel level) (hbas : pars.sparseBasis = ⟨[level], 0⟩)
    (hrule : pars.quadratureRule = ⟨[0], [Quad.sqrtPi]⟩)
    {mean : Fin q → ℝ} {Q : Matrix (Fin q) (Fin q) ℝ} (hQ : Q.PosDef)
    (hz : ∀ i j, i ≠ j → Q i j ≠ 0 → ∃ k, i ∈ Active M k ∧ j ∈ Active M k)
    (hn : NoZeroNormalizer Q) :
    ∃ c, clusterGraph lib pars M = Except.ok c ∧
      (computeLogNormalizingConstant lib pars c mean Q =
          Res.raise "improper cluster belief after passing message" ∨
        ∃ v, computeLogNormalizingConstant lib pars c mean Q = Except.ok v ∧
          |v - laplace (jointLog (logLikClamped μ) M pars.theta pars.beta) mean Q| ≤ q * 1e-9) := by
  obtain ⟨ext, beliefs, e1, e2, hmade, hp, hcont, hcl⟩ :=
    beliefs_made (lib := lib) hl hfam hM hc hb hrd
  have hrange : ∀ b ∈ beliefs, ∀ x ∈ b.items, 0 ≤ x ∧ x < (q : ℤ) := by
    intro b hbm x hx
    obtain ⟨t, ht, hm⟩ := forall₂_mem_right hmade b hbm
    rw [hm.items] at hx
    rcases t with ⟨C, m, D⟩ | ⟨i, s, s'⟩
    · obtain ⟨i, -, rfl⟩ := List.mem_map.1 hx
      exact ⟨by omega, by omega⟩
    · rw [termItems, List.mem_singleton] at hx
      omega
  have hnormal : ∀ i : Fin q, ∃ b ∈ beliefs, b.items = [((i : ℕ) : ℤ)] := by
    intro i
    obtain ⟨b, hbm, hm⟩ := forall₂_mem_left hmade (.normal i 0 1)
      (List.mem_append_right _ (List.mem_map_of_mem (List.mem_finRange i)))
    exact ⟨b, hbm, hm.items⟩
  have hcov : ∀ x : ℤ, (∃ b ∈ beliefs, x ∈ b.items) ↔ 0 ≤ x ∧ x < q := by
    intro x
    constructor
    · rintro ⟨b, hbm, hx⟩
      exact hrange b hbm x hx
    · rintro ⟨h0, h1⟩
      obtain ⟨b, hbm, hi⟩ := hnormal ⟨x.toNat, by omega⟩
      refine ⟨b, hbm, ?_⟩
      rw [hi]
      simp [h0]
  have hsuits : Suits lib.ar (beliefs.map Mixed.items) := by
    unfold Suits
    rcases har with h | ⟨h, hq'⟩
    · exact Or.inl h
    · refine Or.inr ⟨h, le_trans (Finset.card_le_card (t := Finset.univ.image
        fun i : Fin q => ((i : ℕ) : ℤ)) fun x hx => ?_) (Finset.card_image_le.trans ?_)⟩
      · rw [List.mem_toFinset, List.mem_flatten] at hx
        obtain ⟨l, hl', hx⟩ := hx
        obtain ⟨b, hbm, rfl⟩ := List.mem_map.1 hl'
        obtain ⟨h0, h1⟩ := hrange b hbm x hx
        exact Finset.mem_image.mpr ⟨⟨x.toNat, by omega⟩, Finset.mem_univ _, by simp [h0]⟩
      · simpa using hq'
  have hz' : ∀ i j : Fin q, Q i j ≠ 0 →
      ∃ b ∈ beliefs, ((i : ℕ) : ℤ) ∈ b.items ∧ ((j : ℕ) : ℤ) ∈ b.items := by
    intro i j h0
    by_cases hij : i = j
    · obtain ⟨b, hbm, hi⟩ := hnormal i
      exact ⟨b, hbm, by rw [hi]; simp, by rw [hi, hij]; simp⟩
    · obtain ⟨k, hik, hjk⟩ := hz i j hij h0
      obtain ⟨e, he, hke⟩ : ∃ e ∈ ext, k ∈ e.2 := by
        by_contra hno
        push Not at hno
        have := hp k
        rw [List.sum_eq_zero] at this
        · omega
        · intro m hm
          obtain ⟨e, he, rfl⟩ := List.mem_map.1 hm
          exact List.count_eq_zero.2 (hno e he)
      obtain ⟨b, hbm, hm⟩ := forall₂_mem_left hmade
        (Term.glmm e.1 e.2.length (findLocalTerm e.1 e.2 M))
        (List.mem_append_left _ (List.mem_map_of_mem he))
      refine ⟨b, hbm, ?_, ?_⟩ <;> rw [hm.items]
      · exact List.mem_map_of_mem (hcont e he k hke i hik)
      · exact List.mem_map_of_mem (hcont e he k hke j hjk)
  obtain ⟨c, ec, hres⟩ := laplace_run (mean := mean) lib (hrule ▸ centreRule_one)
    (centreGrid_of hlev hbas har)
    (fun b hbm => by
      obtain ⟨t, -, hm⟩ := forall₂_mem_right hmade b hbm
      exact hm.wf) hcov hsuits hQ hz' hn
  refine ⟨c, ?_, hres.imp id fun h => ⟨_, h, ?_⟩⟩
  · rw [clusterGraph, e1]
    simp only [res_ok_bind]
    rw [e2]
    exact ec
  · rw [beliefs_value hl hfam hM hc hb e1 hmade, laplace_eq _ _ hQ]
    have hmean : (fun i : Fin q => vz mean ((i : ℕ) : ℤ)) = mean := funext fun i => vz_cast mean i
    rw [hmean]
    have s2 : Real.sqrt 2 ≠ 0 := (Real.sqrt_pos.mpr two_pos).ne'
    have sp : Real.sqrt Real.pi ≠ 0 := (Real.sqrt_pos.mpr Real.pi_pos).ne'
    have s0 : Quad.sqrtPi ≠ 0 := by rw [Quad.sqrtPi]; norm_num
    have e : ∀ A D : ℝ, A + q * literalError + q * Real.log (Real.sqrt 2 * Quad.sqrtPi) -
        1 / 2 * D - (A + q * Real.log √(2 * Real.pi) - 1 / 2 * D) =
        q * (literalError + Real.log (Quad.sqrtPi / Real.sqrt Real.pi)) := by
      intro A D
      rw [Real.sqrt_mul zero_le_two, Real.log_mul s2 s0, Real.log_mul s2 sp, Real.log_div s0 sp]
      ring
    rw [e, abs_mul, Nat.abs_cast]
    refine mul_le_mul_of_nonneg_left ?_ (Nat.cast_nonneg q)
    refine (abs_add_le _ _).trans ?_
    have h1 := literalError_small
    have h2 := log_ratio
    have h3 : (2 : ℝ) / 10 ^ 12 + 2e-10 ≤ 1e-9 := by norm_num
    linarith

/-! ## The precision of the normal approximation of lme4 -/

/-- The precision of the normal approximation that `lme4` returns is zero between random effects that
no observation shares. -/
theorem precision_shared {size : ℕ} (hM : WellFormed M size) {theta : List ℝ} {W : Fin n → ℝ}
    {d : ℝ} {r : Lfun.PP q} (h : Lfun.Laplace M theta W r) (i j : Fin q) (hij : i ≠ j)
    (h0 : (Lfun.computeNormalApprox (d, r)).2.precision i j ≠ 0) :
    ∃ k, i ∈ Active M k ∧ j ∈ Active M k := by
  rw [Lfun.precision_eq h, Matrix.add_apply, Matrix.one_apply_ne hij, add_zero,
    Matrix.mul_apply] at h0
  obtain ⟨k, -, hk⟩ := Finset.exists_ne_zero_of_sum_ne_zero h0
  have hact : ∀ i, (Matrix.of (Spec.lambdat M theta) * M.Zt) i k ≠ 0 → i ∈ Active M k := by
    intro i hi
    rw [Matrix.mul_apply] at hi
    obtain ⟨c, -, hc⟩ := Finset.exists_ne_zero_of_sum_ne_zero hi
    exact ⟨c, lambdat_stored hM (left_ne_zero_of_mul hc), hM.zt c _ (right_ne_zero_of_mul hc)⟩
  rw [Matrix.mul_diagonal, Matrix.transpose_apply] at hk
  exact ⟨k, hact i (left_ne_zero_of_mul (left_ne_zero_of_mul hk)),
    hact j (right_ne_zero_of_mul hk)⟩

/-- C83 for the normal approximation that `lme4` returns (`R/normal_approximation.R`). Missing: as
in `c83_partial`. -/
theorem c83_lme4_partial {link : String} (hl : IsLink link μ)
    (hfam : Family.ofNames "binomial" link = Except.ok pars.family)
    (hM : WellFormed M pars.theta.length) (hc : Covered M)
    (hb : pars.beta.length = p) (hrd : Reads lib.rd M)
    (har : lib.ar = exactZ ∨ lib.ar = i32 ∧ q ≤ 46341)
    {level : BasisLevel.Level} (hlev : CentreLevel level) (hbas : pars.sparseBasis = ⟨[level], 0⟩)
    (hrule : pars.quadratureRule = ⟨[0], [Quad.sqrtPi]⟩)
    {W : Fin n → ℝ} {d : ℝ} {r : Lfun.PP q} (h : Lfun.Laplace M pars.theta W r)
    (hn : NoZeroNormalizer (Lfun.computeNormalApprox (d, r)).2.precision) :
    ∃ c, clusterGraph lib pars M = Except.ok c ∧
      (computeLogNormalizingConstant lib pars c (Lfun.computeNormalApprox (d, r)).2.mean
          (Lfun.computeNormalApprox (d, r)).2.precision =
          Res.raise "improper cluster belief after passing message" ∨
        ∃ v, computeLogNormalizingConstant lib pars c (Lfun.computeNormalApprox (d, r)).2.mean
            (Lfun.computeNormalApprox (d, r)).2.precision = Except.ok v ∧
          |v - laplace (jointLog (logLikClamped μ) M pars.theta pars.beta)
            (Lfun.computeNormalApprox (d, r)).2.mean
            (Lfun.computeNormalApprox (d, r)).2.precision| ≤ q * 1e-9) :=
  c83_partial hl hfam hM hc hb hrd har hlev hbas hrule (Lfun.precision_posDef h)
    (precision_shared hM h) hn

/-! ## Cases meeting the hypotheses -/

/-- The parameters of `crossedPars` with one quadrature point and a basis of level 0. -/
noncomputable def crossedPars0 : Parameters :=
  { crossedPars with
    sparseBasis := ⟨[⟨0, [0], fun _ _ => 1, 0, []⟩], 0⟩
    quadratureRule := ⟨[0], [Quad.sqrtPi]⟩ }

/-- A precision for two random effects that are not independent. -/
noncomputable def crossedQ : Matrix (Fin 2) (Fin 2) ℝ := !![2, 1; 1, 3]

theorem crossedQ_posDef : crossedQ.PosDef := by
  refine Matrix.PosDef.of_dotProduct_mulVec_pos ?_ fun x hx => ?_
  · ext i j
    fin_cases i <;> fin_cases j <;> simp [crossedQ]
  · have e : star x ⬝ᵥ (crossedQ *ᵥ x) = x 0 ^ 2 + (x 0 + x 1) ^ 2 + 2 * x 1 ^ 2 := by
      simp [crossedQ, Matrix.mulVec, dotProduct, Fin.sum_univ_two]
      ring
    rw [e]
    by_contra hn
    have h0 := sq_nonneg (x 0)
    have h1 := sq_nonneg (x 1)
    have h2 := sq_nonneg (x 0 + x 1)
    have z0 : x 0 = 0 := by
      have : x 0 ^ 2 = 0 := by linarith
      simpa using this
    have z1 : x 1 = 0 := by
      have : x 1 ^ 2 = 0 := by linarith
      simpa using this
    exact hx (by ext i; fin_cases i <;> simp [z0, z1])

theorem crossedQ_inv : crossedQ⁻¹ = !![3 / 5, -1 / 5; -1 / 5, 2 / 5] := by
  refine Matrix.inv_eq_right_inv ?_
  ext i j
  fin_cases i <;> fin_cases j <;> norm_num [crossedQ, Matrix.mul_apply, Fin.sum_univ_two]

theorem crossedQ_regular : NoZeroNormalizer crossedQ := by
  have h25 := Real.one_sub_inv_le_log_of_pos (show (0 : ℝ) < 2 / 5 by norm_num)
  have h35 := Real.one_sub_inv_le_log_of_pos (show (0 : ℝ) < 3 / 5 by norm_num)
  have h12 := Real.one_sub_inv_le_log_of_pos (show (0 : ℝ) < 1 / 2 by norm_num)
  have h15 : Real.log (1 / 5) = Real.log (2 / 5) + Real.log (1 / 2) := by
    rw [← Real.log_mul (by norm_num) (by norm_num)]
    norm_num
  norm_num at h25 h35 h12
  intro m e he
  have hm : m + 1 ≤ 2 := by simpa using Fintype.card_le_of_injective e he
  rcases m with _ | _ | m
  · rw [Matrix.det_fin_one, Matrix.submatrix_apply, crossedQ_inv, logSqrtTwoPi]
    generalize e 0 = i
    fin_cases i
    · intro h
      norm_num at h
      linarith
    · intro h
      norm_num at h
      linarith
  · have hb : Function.Bijective e := (Fintype.bijective_iff_injective_and_card e).2 ⟨he, rfl⟩
    have hd : (crossedQ⁻¹.submatrix e e).det = 1 / 5 := by
      have := Matrix.det_submatrix_equiv_self (Equiv.ofBijective e hb) crossedQ⁻¹
      rw [show crossedQ⁻¹.submatrix e e = crossedQ⁻¹.submatrix (Equiv.ofBijective e hb)
        (Equiv.ofBijective e hb) from rfl, this, crossedQ_inv, Matrix.det_fin_two]
      norm_num
    rw [hd, h15, logSqrtTwoPi]
    intro h
    norm_num at h
    linarith
  · omega

/-- Two crossed random effects with dependent normal approximation, machine integers. (Reads beyond
the end of `theta` give 0.) -/
example (lib : Lib) (har : lib.ar = i32) (hrd : lib.rd = fun theta k =>
      if 0 ≤ k ∧ k < theta.length then read theta k else Except.ok 0) (mean : Fin 2 → ℝ) :
    ∃ c, clusterGraph lib crossedPars0 crossed = Except.ok c ∧
      (computeLogNormalizingConstant lib crossedPars0 c mean crossedQ =
          Res.raise "improper cluster belief after passing message" ∨
        ∃ v, computeLogNormalizingConstant lib crossedPars0 c mean crossedQ = Except.ok v ∧
          |v - laplace (jointLog (logLikClamped expit) crossed [1, 2] [0.5]) mean crossedQ| ≤
            (2 : ℕ) * 1e-9) :=
  c83_partial .logit (pars := crossedPars0) rfl crossed_wf crossed_covered rfl
    (by
      rw [hrd]
      refine ⟨fun theta k h0 h1 => if_pos ⟨h0, h1⟩, Or.inr fun theta k => ?_⟩
      by_cases h : 0 ≤ k ∧ k < theta.length
      · obtain ⟨h0, h1⟩ := h
        refine ⟨theta[k.toNat]'(by omega), ?_⟩
        simp only [if_pos (And.intro h0 h1)]
        rw [GLMM.read, if_neg (by omega)]
        exact nth_ok (by omega)
      · exact ⟨0, if_neg h⟩)
    (Or.inr ⟨har, by norm_num⟩) (level := ⟨0, [0], fun _ _ => 1, 0, []⟩) ⟨rfl, rfl⟩ rfl rfl
    crossedQ_posDef
    (fun i j _ _ => ⟨1, ⟨i, by fin_cases i <;> simp [crossed], by fin_cases i <;> simp [crossed]⟩,
      ⟨j, by fin_cases j <;> simp [crossed], by fin_cases j <;> simp [crossed]⟩⟩)
    crossedQ_regular

/-- The parameters of `twoPars` with a basis of level 0. -/
noncomputable def twoPars0 : Parameters :=
  { twoPars with sparseBasis := ⟨[⟨0, [0], fun _ _ => 1, 0, []⟩], 0⟩ }

theorem one_regular : NoZeroNormalizer (1 : Matrix (Fin q) (Fin q) ℝ) := by
  intro m e he
  have : ((1 : Matrix (Fin q) (Fin q) ℝ)⁻¹.submatrix e e) = 1 := by
    rw [inv_one]
    exact Matrix.submatrix_one e he
  rw [this, Matrix.det_one, Real.log_one, logSqrtTwoPi]
  have : (0 : ℝ) ≤ m := Nat.cast_nonneg m
  intro h
  norm_num at h
  linarith

/-- A two-level model: here there is no exception. -/
example (lib : Lib) (har : lib.ar = i32) (hrd : lib.rd = read) :
    ∃ c v, clusterGraph lib twoPars0 twoGroups = Except.ok c ∧
      computeLogNormalizingConstant lib twoPars0 c (0 : Fin 2 → ℝ) 1 = Except.ok v ∧
      |v - laplace (jointLog (logLikClamped expit) twoGroups [1] [0.5]) 0 1| ≤ (2 : ℕ) * 1e-9 := by
  have hcov : Covered twoGroups := fun j => ⟨_, by rw [twoGroups_level j]; rfl⟩
  have hr : Reads lib.rd twoGroups := by
    rw [hrd]
    exact ⟨fun _ _ _ _ => rfl, Or.inl (by simp [twoGroups])⟩
  obtain ⟨c, e1, h1⟩ := c83_partial (mean := 0) .logit (pars := twoPars0) rfl twoGroups_wf hcov rfl hr
    (Or.inr ⟨har, by norm_num⟩) (level := ⟨0, [0], fun _ _ => 1, 0, []⟩) ⟨rfl, rfl⟩ rfl rfl
    Matrix.PosDef.one (fun i j h h' => absurd (Matrix.one_apply_ne h) h') one_regular
  obtain ⟨c', e2, h2⟩ := c80_runs .logit (pars := twoPars0) rfl twoGroups_wf twoGroups_level rfl
    two_pos hr (Or.inr ⟨har, by norm_num⟩) twoPars_rule (mean := 0) Matrix.PosDef.one
    (fun i j h => Matrix.one_apply_ne h)
    (fun i => by rw [Matrix.one_apply_eq, Real.log_one, logSqrtTwoPi]; norm_num)
    twoGroups_resp (fun j => by rw [twoGroups_weight]; exact zero_le_one) twoGroups_agq
  rw [e1] at e2
  cases e2
  rcases h1 with h1 | ⟨v, h1, h3⟩
  · rw [h2] at h1
    cases h1
  · exact ⟨c, v, e1, h1, h3⟩

end Verif.SR
