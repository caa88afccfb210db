import Verif.Spec.Separation
import Verif.Props.Gradient
import Verif.Props.FixedConcave
import Verif.Props.Fit
import Mathlib.Topology.Algebra.Module.FiniteDimension
import Mathlib.Analysis.Normed.Module.FiniteDimension

/-!
# C118: maximum likelihood estimates of the fixed effects exist just if there is no separation
-/
namespace Verif.Separation

open Verif.Split Verif.Family Verif.GLMM ProbabilityTheory MeasureTheory Filter Topology
open Verif.Separation.Spec

variable {q n p : ℕ} {μ : ℝ → ℝ} {link : String} {w y : ℝ}

/-! ## The links -/

theorem link_facts (hl : IsLink link μ) : StrictMono μ ∧ (∀ x, 0 < μ x ∧ μ x < 1) ∧
    Tendsto μ atTop (𝓝 1) ∧ Tendsto μ atBot (𝓝 0) := by
  rcases hl with _ | _
  · refine ⟨lo0_eq ▸ mu_mono logit_ok, fun x => ?_, ?_, ?_⟩
    · unfold expit
      have := Real.exp_pos (-x)
      exact ⟨by positivity, inv_lt_one_of_one_lt₀ (by linarith)⟩
    · have h : Tendsto (fun x : ℝ => (1 + Real.exp (-x))⁻¹) atTop (𝓝 (1 + 0)⁻¹) :=
        ((Real.tendsto_exp_neg_atTop_nhds_zero).const_add 1).inv₀ (by norm_num)
      rw [add_zero, inv_one] at h
      exact h
    · refine Tendsto.inv_tendsto_atTop (tendsto_atTop_add_const_left _ _ ?_)
      exact Real.tendsto_exp_atTop.comp tendsto_neg_atBot_atTop
  · rw [← normalCdf_eq]
    exact ⟨mu_mono probit_ok, normalCdf_mem, tendsto_cdf_atTop _, tendsto_cdf_atBot _⟩

/-! ## One observation -/

theorem logLik_move (hl : IsLink link μ) (hw : 0 ≤ w) (h0 : 0 ≤ y) (h1 : y ≤ 1) {e : ℝ}
    (h : 0 < w → (y < 1 → e ≤ 0) ∧ (0 < y → 0 ≤ e)) (x : ℝ) :
    logLik μ y w x ≤ logLik μ y w (x + e) ∧
      (0 < w → e ≠ 0 → logLik μ y w x < logLik μ y w (x + e)) := by
  obtain ⟨hm, hr, -, -⟩ := link_facts hl
  rcases hw.eq_or_lt with hw | hw
  · subst hw
    simp [logLik]
  obtain ⟨hf, hs⟩ := h hw
  by_cases he : e = 0
  · simp [he]
  suffices hlt : logLik μ y w x < logLik μ y w (x + e) from ⟨hlt.le, fun _ _ => hlt⟩
  unfold logLik
  refine mul_lt_mul_of_pos_left ?_ hw
  rcases h1.eq_or_lt with h1 | h1
  · subst h1
    have he : 0 < e := lt_of_le_of_ne (hs one_pos) (Ne.symm he)
    have := Real.log_lt_log (hr x).1 (hm (by linarith : x < x + e))
    simpa using this
  · rcases h0.eq_or_lt with h0 | h0
    · subst h0
      have he : e < 0 := lt_of_le_of_ne (hf one_pos) he
      have := hm (by linarith : x + e < x)
      have := Real.log_lt_log (by linarith [(hr x).2]) (by linarith : 1 - μ x < 1 - μ (x + e))
      simpa using this
    · exact absurd (le_antisymm (hf h1) (hs h0)) he

theorem logLik_top (hl : IsLink link μ) (hw : 0 < w) (h0 : 0 ≤ y) (h1 : y < 1) :
    Tendsto (logLik μ y w) atTop atBot := by
  obtain ⟨-, hr, ht, -⟩ := link_facts hl
  have h : Tendsto (fun x => Real.log (1 - μ x)) atTop atBot := by
    refine Real.tendsto_log_nhdsGT_zero.comp (tendsto_nhdsWithin_iff.2 ⟨?_, ?_⟩)
    · simpa using ht.const_sub 1
    · exact Eventually.of_forall fun x => by simpa using (hr x).2
  refine tendsto_atBot_mono (fun x => ?_) (h.const_mul_atBot (mul_pos hw (sub_pos.2 h1)))
  have : y * Real.log (μ x) ≤ 0 :=
    mul_nonpos_of_nonneg_of_nonpos h0 (Real.log_nonpos (hr x).1.le (hr x).2.le)
  unfold logLik
  nlinarith

theorem logLik_bot (hl : IsLink link μ) (hw : 0 < w) (h0 : 0 < y) (h1 : y ≤ 1) :
    Tendsto (logLik μ y w) atBot atBot := by
  obtain ⟨-, hr, -, hb⟩ := link_facts hl
  have h : Tendsto (fun x => Real.log (μ x)) atBot atBot := by
    refine Real.tendsto_log_nhdsGT_zero.comp (tendsto_nhdsWithin_iff.2 ⟨hb, ?_⟩)
    exact Eventually.of_forall fun x => (hr x).1
  refine tendsto_atBot_mono (fun x => ?_) (h.const_mul_atBot (mul_pos hw h0))
  have : (1 - y) * Real.log (1 - μ x) ≤ 0 :=
    mul_nonpos_of_nonneg_of_nonpos (by linarith)
      (Real.log_nonpos (by linarith [(hr x).2]) (by linarith [(hr x).1]))
  unfold logLik
  nlinarith

/-! ## The linear predictor -/

theorem eta_split (M : ModFr q n p) (theta : List ℝ) (b : Fin p → ℝ) (u : Fin q → ℝ) (j : Fin n) :
    Split.Spec.eta M theta (List.ofFn b) u j =
      move M b j + ∑ r, (∑ c, Split.Spec.lambdat M theta r c * M.Zt c j) * u r := by
  unfold Split.Spec.eta move
  congr 1
  refine Finset.sum_congr rfl fun k _ => ?_
  rw [List.getD_eq_getElem _ _ (by simp), List.getElem_ofFn]

theorem move_add (M : ModFr q n p) (b d : Fin p → ℝ) (j : Fin n) :
    move M (b + d) j = move M b j + move M d j := by
  simp [move, mul_add, Finset.sum_add_distrib]

theorem move_smul (M : ModFr q n p) (t : ℝ) (d : Fin p → ℝ) (j : Fin n) :
    move M (t • d) j = t * move M d j := by
  simp only [move, Pi.smul_apply, smul_eq_mul, Finset.mul_sum]
  exact Finset.sum_congr rfl fun k _ => by ring

/-! ## With separation -/

/-- C118: in a direction that separates, and in which some observation moves, the likelihood gets
larger. -/
theorem c118_increase (hl : IsLink link μ) {M : ModFr q n p} (hw : ∀ j, 0 ≤ Split.Spec.weight M j)
    (hy : ∀ j, 0 ≤ M.resp j ∧ M.resp j ≤ 1) (theta : List ℝ) {d : Fin p → ℝ} (hd : Separates M d)
    {j : Fin n} (hj : 0 < Split.Spec.weight M j) (hm : move M d j ≠ 0) (b : Fin p → ℝ) :
    likelihood M μ theta b < likelihood M μ theta (b + d) := by
  have hlt : ∀ u, Real.exp (Split.Spec.logIntegrand M μ theta (List.ofFn b) u) <
      Real.exp (Split.Spec.logIntegrand M μ theta (List.ofFn (b + d)) u) := by
    intro u
    rw [Real.exp_lt_exp]
    unfold Split.Spec.logIntegrand
    refine add_lt_add_left ?_ _
    have e : ∀ i, Split.Spec.eta M theta (List.ofFn (b + d)) u i =
        Split.Spec.eta M theta (List.ofFn b) u i + move M d i := by
      intro i
      rw [eta_split, eta_split, move_add]
      ring
    simp only [e]
    refine Finset.sum_lt_sum (fun i _ => ?_) ⟨j, Finset.mem_univ _, ?_⟩
    · exact (logLik_move hl (hw i) (hy i).1 (hy i).2 (hd i) _).1
    · exact (logLik_move hl (hw j) (hy j).1 (hy j).2 (hd j) _).2 hj hm
  have h1 := (Mode.c110_likelihood hl hw hy theta (List.ofFn b)).1
  have h2 := (Mode.c110_likelihood hl hw hy theta (List.ofFn (b + d))).1
  unfold likelihood
  rw [← sub_pos, ← integral_sub h2 h1]
  refine (integral_pos_iff_support_of_nonneg (fun u => (sub_pos.2 (hlt u)).le) (h2.sub h1)).2 ?_
  have : Function.support (fun u => Real.exp (Split.Spec.logIntegrand M μ theta (List.ofFn (b + d)) u) -
      Real.exp (Split.Spec.logIntegrand M μ theta (List.ofFn b) u)) = Set.univ :=
    Set.eq_univ_of_forall fun u => (sub_pos.2 (hlt u)).ne'
  change 0 < volume (Function.support (fun u =>
    Real.exp (Split.Spec.logIntegrand M μ theta (List.ofFn (b + d)) u) -
      Real.exp (Split.Spec.logIntegrand M μ theta (List.ofFn b) u)))
  rw [this]
  exact isOpen_univ.measure_pos volume Set.univ_nonempty

/-! ## Without separation -/

/-- The movements of the observations with weight. -/
noncomputable def moves (M : ModFr q n p) : (Fin p → ℝ) →ₗ[ℝ] (Fin n → ℝ) where
  toFun d j := if 0 < Split.Spec.weight M j then move M d j else 0
  map_add' a b := by
    funext j
    simp only [Pi.add_apply, move_add]
    split_ifs <;> simp
  map_smul' t a := by
    funext j
    simp only [Pi.smul_apply, smul_eq_mul, move_smul, RingHom.id_apply]
    split_ifs <;> simp

theorem moves_apply {M : ModFr q n p} {j : Fin n} (hj : 0 < Split.Spec.weight M j) (d : Fin p → ℝ) :
    moves M d j = move M d j := if_pos hj

/-- The likelihood depends on these movements only. -/
theorem likelihood_moves {M : ModFr q n p} (hw : ∀ j, 0 ≤ Split.Spec.weight M j) (theta : List ℝ)
    {b b' : Fin p → ℝ} (h : moves M b = moves M b') : likelihood M μ theta b = likelihood M μ theta b' := by
  unfold likelihood
  refine congrArg (integral _) (funext fun u => congrArg Real.exp ?_)
  unfold Split.Spec.logIntegrand
  congr 1
  refine Finset.sum_congr rfl fun j _ => ?_
  rcases (hw j).eq_or_lt with hj | hj
  · simp [logLik, ← hj]
  · rw [eta_split, eta_split, ← moves_apply hj, ← moves_apply hj, h]

/-- Along a sequence of fixed effects whose movements have a direction with which some observation
disagrees, the likelihood tends to zero. -/
theorem tends_zero (hl : IsLink link μ) {M : ModFr q n p} (hw : ∀ j, 0 ≤ Split.Spec.weight M j)
    (hy : ∀ j, 0 ≤ M.resp j ∧ M.resp j ≤ 1) (theta : List ℝ) {b : ℕ → Fin p → ℝ} {j : Fin n}
    (hj : 0 < Split.Spec.weight M j)
    (h : (M.resp j < 1 ∧ Tendsto (fun i => move M (b i) j) atTop atTop) ∨
      (0 < M.resp j ∧ Tendsto (fun i => move M (b i) j) atTop atBot)) :
    Tendsto (fun i => likelihood M μ theta (b i)) atTop (𝓝 0) := by
  have h0 : (0 : ℝ) = ∫ _ : Fin q → ℝ, (0 : ℝ) := by simp
  rw [h0]
  unfold likelihood
  refine tendsto_integral_of_dominated_convergence (fun u => ∏ r, gaussianPDFReal 0 1 (u r)) ?_ ?_ ?_ ?_
  · exact fun i => (Mode.c110_likelihood hl hw hy _ _).1.aestronglyMeasurable
  · exact Integrable.fintype_prod (μ := fun _ => volume) fun _ => integrable_gaussianPDFReal 0 1
  · refine fun i => Eventually.of_forall fun u => ?_
    rw [Real.norm_of_nonneg (Real.exp_pos _).le]
    exact Gradient.integrand_le hl hw hy _ _ u
  · refine Eventually.of_forall fun u => Real.tendsto_exp_atBot.comp ?_
    unfold Split.Spec.logIntegrand
    refine tendsto_atBot_add_const_right _ _ ?_
    have hlim : Tendsto (fun i => logLik μ (M.resp j) (Split.Spec.weight M j)
        (Split.Spec.eta M theta (List.ofFn (b i)) u j)) atTop atBot := by
      simp only [eta_split]
      rcases h with ⟨h1, h2⟩ | ⟨h1, h2⟩
      · exact (logLik_top hl hj (hy j).1 h1).comp (tendsto_atTop_add_const_right _ _ h2)
      · exact (logLik_bot hl hj h1 (hy j).2).comp (tendsto_atBot_add_const_right _ _ h2)
    refine tendsto_atBot_mono (fun i => ?_) hlim
    rw [← Finset.add_sum_erase _ _ (Finset.mem_univ j)]
    have := Finset.sum_nonpos (s := Finset.univ.erase j) fun i' _ =>
      Mode.logLik_nonpos hl (hw i') (hy i').1 (hy i').2 (Split.Spec.eta M theta (List.ofFn (b i)) u i')
    linarith

theorem disagree {M : ModFr q n p} (hM : Overlap M) {d : Fin p → ℝ} (hd : moves M d ≠ 0) :
    ∃ j, 0 < Split.Spec.weight M j ∧
      ((M.resp j < 1 ∧ 0 < moves M d j) ∨ (0 < M.resp j ∧ moves M d j < 0)) := by
  by_contra hn
  push Not at hn
  refine hd (funext fun j => ?_)
  by_cases hj : 0 < Split.Spec.weight M j
  · rw [moves_apply hj]
    refine hM d (fun i hi => ?_) j hj
    have := hn i hi
    rw [moves_apply hi] at this
    exact this
  · exact if_neg hj

/-- C118: for given variance parameters, the likelihood has a maximum over the fixed effects just if
successes and failures are not separated. -/
theorem c118 (hl : IsLink link μ) {M : ModFr q n p} (hw : ∀ j, 0 ≤ Split.Spec.weight M j)
    (hy : ∀ j, 0 ≤ M.resp j ∧ M.resp j ≤ 1) (theta : List ℝ) :
    (∃ b, ∀ b', likelihood M μ theta b' ≤ likelihood M μ theta b) ↔ Overlap M := by
  constructor
  · rintro ⟨b, hb⟩ d hd j hj
    by_contra hm
    exact absurd (hb (b + d)) (not_le.2 (c118_increase hl hw hy theta hd hj hm b))
  · intro hM
    set V := LinearMap.range (moves M) with hV
    obtain ⟨S, hS⟩ := (moves M).rangeRestrict.exists_rightInverse_of_surjective
      (LinearMap.range_rangeRestrict _)
    have hS' : ∀ v : V, moves M (S v) = v := fun v => by
      have := LinearMap.congr_fun hS v
      exact congrArg Subtype.val this
    have hSc : Continuous S := S.continuous_of_finiteDimensional
    set F : V → ℝ := fun v => likelihood M μ theta (S v) with hF
    have hFc : Continuous F := by
      have h := NoVariance.c112_continuous (M := M) hl hw hy theta.length p
      have h2 : Continuous fun v : V => (theta.get, S v) := continuous_const.prodMk hSc
      have := h.comp h2
      simpa [Function.comp_def, hF, likelihood] using this
    have hlim : Tendsto F (cocompact V) (𝓝 0) := by
      rw [← Metric.cobounded_eq_cocompact, ← comap_norm_atTop]
      refine tendsto_of_subseq_tendsto fun ns hns => ?_
      have hnorm : Tendsto (fun i => ‖ns i‖) atTop atTop := tendsto_comap_iff.1 hns
      have hball : ∀ i, ‖ns i‖⁻¹ • ns i ∈ Metric.closedBall (0 : V) 1 := by
        intro i
        rw [mem_closedBall_zero_iff, norm_smul, norm_inv, norm_norm]
        exact inv_mul_le_one
      obtain ⟨v, -, φ, hφ, hv⟩ := (isCompact_closedBall (0 : V) 1).tendsto_subseq hball
      have hnφ : Tendsto (fun i => ‖ns (φ i)‖) atTop atTop := hnorm.comp hφ.tendsto_atTop
      have hv1 : ‖v‖ = 1 := by
        refine tendsto_nhds_unique hv.norm (tendsto_const_nhds.congr' ?_)
        filter_upwards [hnφ.eventually_gt_atTop 0] with i hi
        simp only [Function.comp_apply, norm_smul, norm_inv, norm_norm]
        rw [inv_mul_cancel₀ hi.ne']
      have hv0 : moves M (S v) ≠ 0 := by
        rw [hS']
        intro h
        have : v = 0 := Subtype.ext h
        rw [this, norm_zero] at hv1
        exact zero_ne_one hv1
      obtain ⟨j, hj, hdis⟩ := disagree hM hv0
      refine ⟨φ, ?_⟩
      have hcoord : Tendsto (fun i => ‖ns (φ i)‖⁻¹ * (ns (φ i) : Fin n → ℝ) j) atTop
          (𝓝 ((v : Fin n → ℝ) j)) :=
        ((continuous_apply j).comp continuous_subtype_val).continuousAt.tendsto.comp hv
      have hmove : ∀ᶠ i in atTop, ‖ns (φ i)‖ * (‖ns (φ i)‖⁻¹ * (ns (φ i) : Fin n → ℝ) j) =
          move M (S (ns (φ i))) j := by
        filter_upwards [hnφ.eventually_gt_atTop 0] with i hi
        rw [← moves_apply hj, hS', mul_inv_cancel_left₀ hi.ne']
      refine tends_zero hl hw hy theta (b := fun i => S (ns (φ i))) hj ?_
      rw [hS'] at hdis
      rcases hdis with ⟨h1, h2⟩ | ⟨h1, h2⟩
      · exact Or.inl ⟨h1, (hnφ.atTop_mul_pos h2 hcoord).congr' hmove⟩
      · exact Or.inr ⟨h1, (hnφ.atTop_mul_neg h2 hcoord).congr' hmove⟩
    obtain ⟨v, hv⟩ := hFc.exists_forall_ge' 0
      ((hlim.eventually (gt_mem_nhds (Mode.c110_likelihood hl hw hy theta (List.ofFn (S 0))).2.1)).mono
        fun _ h => h.le)
    refine ⟨S v, fun b' => ?_⟩
    have h1 : moves M (S ⟨moves M b', LinearMap.mem_range_self _ _⟩) = moves M b' := hS' _
    rw [← likelihood_moves hw theta h1]
    exact hv _

/-- C118: with separation there are no maximum likelihood estimates of all the parameters. -/
theorem c118_joint (hl : IsLink link μ) {M : ModFr q n p} (hw : ∀ j, 0 ≤ Split.Spec.weight M j)
    (hy : ∀ j, 0 ≤ M.resp j ∧ M.resp j ≤ 1) (hM : ¬ Overlap M) :
    ¬ ∃ theta b, ∀ theta' b', likelihood M μ theta' b' ≤ likelihood M μ theta b := by
  rintro ⟨theta, b, h⟩
  exact hM ((c118 hl hw hy theta).1 ⟨b, h theta⟩)

/-- C118: where all observations move, in the direction in which they get more likely, the likelihood
tends to 1. -/
theorem c118_limit (hl : IsLink link μ) {M : ModFr q n p} (hw : ∀ j, 0 ≤ Split.Spec.weight M j)
    (theta : List ℝ) {d : Fin p → ℝ}
    (hd : ∀ j, (M.resp j = 1 ∧ 0 < move M d j) ∨ (M.resp j = 0 ∧ move M d j < 0)) (b : Fin p → ℝ) :
    Tendsto (fun t : ℝ => likelihood M μ theta (b + t • d)) atTop (𝓝 1) := by
  have hy : ∀ j, 0 ≤ M.resp j ∧ M.resp j ≤ 1 := fun j => by
    rcases hd j with ⟨h, -⟩ | ⟨h, -⟩ <;> rw [h] <;> norm_num
  obtain ⟨-, hr, ht, hb⟩ := link_facts hl
  have h1 : (1 : ℝ) = ∫ u : Fin q → ℝ, ∏ r, gaussianPDFReal 0 1 (u r) := by
    rw [integral_fintype_prod_volume_eq_prod (fun _ => gaussianPDFReal 0 1)]
    simp [integral_gaussianPDFReal_eq_one]
  rw [h1]
  unfold likelihood
  refine tendsto_integral_filter_of_dominated_convergence (fun u => ∏ r, gaussianPDFReal 0 1 (u r))
    ?_ ?_ ?_ ?_
  · exact Eventually.of_forall fun t => (Mode.c110_likelihood hl hw hy _ _).1.aestronglyMeasurable
  · refine Eventually.of_forall fun t => Eventually.of_forall fun u => ?_
    rw [Real.norm_of_nonneg (Real.exp_pos _).le]
    exact Gradient.integrand_le hl hw hy _ _ u
  · exact Integrable.fintype_prod (μ := fun _ => volume) fun _ => integrable_gaussianPDFReal 0 1
  · refine Eventually.of_forall fun u => ?_
    rw [← NoVariance.prod_gaussian]
    refine (Real.continuous_exp.tendsto _).comp ?_
    unfold Split.Spec.logIntegrand
    have h0 : Tendsto (fun t : ℝ => ∑ j, logLik μ (M.resp j) (Split.Spec.weight M j)
        (Split.Spec.eta M theta (List.ofFn (b + t • d)) u j)) atTop (𝓝 0) := by
      rw [show (0 : ℝ) = ∑ j : Fin n, 0 by simp]
      refine tendsto_finset_sum _ fun j _ => ?_
      simp only [eta_split, move_add, move_smul]
      rcases hd j with ⟨h, hm⟩ | ⟨h, hm⟩
      · have e : Tendsto (fun t : ℝ => move M b j + t * move M d j +
            ∑ r, (∑ c, Split.Spec.lambdat M theta r c * M.Zt c j) * u r) atTop atTop :=
          tendsto_atTop_add_const_right _ _ (tendsto_atTop_add_const_left _ _
            (tendsto_id.atTop_mul_const hm))
        have := ((ht.comp e).log one_ne_zero).const_mul (Split.Spec.weight M j)
        simpa [logLik, h] using this
      · have e : Tendsto (fun t : ℝ => move M b j + t * move M d j +
            ∑ r, (∑ c, Split.Spec.lambdat M theta r c * M.Zt c j) * u r) atTop atBot :=
          tendsto_atBot_add_const_right _ _ (tendsto_atBot_add_const_left _ _
            (tendsto_id.atTop_mul_const_of_neg hm))
        have := (((hb.comp e).const_sub 1).log (by norm_num)).const_mul (Split.Spec.weight M j)
        simpa [logLik, h] using this
    simpa using h0.add_const (∑ r, Real.log (gaussianPDFReal 0 1 (u r)))

/-! ## C119: warnings -/

/-- C119, the part that holds: with independent random effects there is a warning just if an estimate of
a standard deviation is larger than 4.9. Missing: a warning where there are no maximum likelihood
estimates because of the fixed effects, see `c119_silent`. -/
theorem c119_partial {lower : List ℝ} {m : ℕ} (hm : 0 < m) (h0 : ∀ x ∈ lower, x = 0) {opt : Fit.Opt}
    {r : Fit.Result} (h : (Fit.finish lower m opt).res = Except.ok r) :
    (Fit.finish lower m opt).warnings = ["The approximate MLE might not be finite"] ↔
      ∃ i < m, ∃ v, opt.estim[i]? = some v ∧ 4.9 < |v| := by
  obtain ⟨f, -, -, -, h3, h4, h5⟩ := Fit.finish_spec hm h0 h
  have hiff : Fit.Spec.Large m f.estim ↔ ∃ i < m, ∃ v, opt.estim[i]? = some v ∧ 4.9 < |v| := by
    constructor
    · rintro ⟨i, hi, v, hv, hgt⟩
      rw [h3] at hv
      obtain ⟨a, ha, hav⟩ := Option.map_eq_some_iff.1 hv
      rw [if_pos hi] at hav
      exact ⟨i, hi, a, ha, hav ▸ hgt⟩
    · rintro ⟨i, hi, v, hv, hgt⟩
      refine ⟨i, hi, |v|, ?_, hgt⟩
      rw [h3, hv, Option.map_some, if_pos hi]
  rw [← hiff]
  constructor
  · intro hwarn
    by_contra hn
    rw [(h5 hn).2] at hwarn
    simp at hwarn
  · exact fun hL => (h4 hL).2

/-- C119: with separation there are no maximum likelihood estimates, but if the estimates of the standard
deviations are at most 4.9 there is no warning, whatever the estimates of the fixed effects. -/
theorem c119_silent (hl : IsLink link μ) {M : ModFr q n p} (hw : ∀ j, 0 ≤ Split.Spec.weight M j)
    (hy : ∀ j, 0 ≤ M.resp j ∧ M.resp j ≤ 1) (hM : ¬ Overlap M) {lower : List ℝ} {m : ℕ} (hm : 0 < m)
    (h0 : ∀ x ∈ lower, x = 0) {theta : List ℝ} (ht : theta.length = m) (h : ∀ t ∈ theta, |t| ≤ 4.9)
    (b : Fin p → ℝ) (Sigma : List (List (Option ℝ))) {r : Fit.Result}
    (hr : (Fit.finish lower m ⟨theta ++ List.ofFn b, Sigma⟩).res = Except.ok r) :
    (Fit.finish lower m ⟨theta ++ List.ofFn b, Sigma⟩).warnings = [] ∧
      ¬ ∃ theta b, ∀ theta' b', likelihood M μ theta' b' ≤ likelihood M μ theta b := by
  refine ⟨?_, c118_joint hl hw hy hM⟩
  obtain ⟨f, -, -, -, h3, -, h5⟩ := Fit.finish_spec hm h0 hr
  refine (h5 ?_).2
  rintro ⟨i, hi, v, hv, hgt⟩
  rw [h3] at hv
  obtain ⟨a, ha, hav⟩ := Option.map_eq_some_iff.1 hv
  rw [if_pos hi] at hav
  have hmem : a ∈ theta := by
    rw [List.getElem?_append_left (by omega)] at ha
    exact List.mem_of_getElem? ha
  have := h a hmem
  rw [← hav] at hgt
  linarith

/-! ## Cases meeting the hypotheses -/

/-- The model `pair` has a success and a failure with the same covariates. -/
theorem pair_overlap : Overlap Whole.pair := by
  intro d hd j _
  have h1 := (hd 0 (by simp [Split.Spec.weight, Whole.pair])).2 (by simp [Whole.pair])
  have h2 := (hd 1 (by simp [Split.Spec.weight, Whole.pair])).1 (by simp [Whole.pair])
  have e : ∀ j, move Whole.pair d j = d 0 := fun j => by simp [move, Whole.pair]
  rw [e] at h1 h2 ⊢
  exact le_antisymm h2 h1

example : ∃ b, ∀ b', likelihood Whole.pair expit [2] b' ≤ likelihood Whole.pair expit [2] b :=
  (c118 .logit (fun j => by simp [Split.Spec.weight, Whole.pair])
    (fun j => by fin_cases j <;> simp [Whole.pair]) [2]).2 pair_overlap

/-- Two successes in one group. -/
noncomputable def successes : ModFr 1 2 1 := { Whole.pair with resp := fun _ => 1 }

theorem successes_direction (j : Fin 2) : (successes.resp j = 1 ∧ 0 < move successes 1 j) ∨
    (successes.resp j = 0 ∧ move successes 1 j < 0) := by
  left
  simp [move, successes, Whole.pair]

theorem successes_separated : ¬ Overlap successes := by
  intro h
  have := h 1 (fun j _ => ⟨fun hj => by simp [successes] at hj, fun _ => by
    simp [move, successes, Whole.pair]⟩) 0 (by simp [Split.Spec.weight, successes, Whole.pair])
  simp [move, successes, Whole.pair] at this

example (b : Fin 1 → ℝ) : likelihood successes expit [2] b < likelihood successes expit [2] (b + 1) :=
  c118_increase .logit (fun j => by simp [Split.Spec.weight, successes, Whole.pair])
    (fun j => by simp [successes]) [2] (j := 0) (fun j _ =>
      ⟨fun hj => by simp [successes] at hj, fun _ => by simp [move, successes, Whole.pair]⟩)
    (by simp [Split.Spec.weight, successes, Whole.pair]) (by simp [move, successes, Whole.pair]) b

example : Tendsto (fun t : ℝ => likelihood successes invProbit [2] (0 + t • 1)) atTop (𝓝 1) :=
  c118_limit .probit (fun j => by simp [Split.Spec.weight, successes, Whole.pair]) [2]
    successes_direction 0

/-- Estimates 1 and 30 of the standard deviation and the intercept. -/
theorem finish_large : ∃ r, (Fit.finish [0] 1 ⟨[1] ++ List.ofFn fun _ : Fin 1 => (30 : ℝ), []⟩).res =
    Except.ok r := by
  have h1 : IS.index [(1 : ℝ), 30] (IS.colon 1 1) = [some 1] := by
    rw [Fit.index_first one_pos]
    simp
  refine ⟨.glmmFit ⟨[1, 30], []⟩, ?_⟩
  unfold Fit.finish
  rw [if_pos (by simp)]
  have h2 : Fit.absTheta ([(1 : ℝ)] ++ List.ofFn fun _ : Fin 1 => (30 : ℝ)) 1 = Except.ok [1, 30] := by
    simp [Fit.absTheta, IS.colon]
  have h3 : Fit.anyGt (IS.index [(1 : ℝ), 30] (IS.colon 1 1)) 4.9 = Except.ok false := by
    rw [h1, Fit.anyGt, if_neg (by norm_num), if_neg (by simp)]
  dsimp only
  rw [h2]
  simp [h3, Fit.Run.lift, Fit.Run.warnIf, Bind.bind, Fit.Run.bind, pure]

example : (Fit.finish [0] 1 ⟨[1] ++ List.ofFn fun _ : Fin 1 => (30 : ℝ), []⟩).warnings = [] := by
  obtain ⟨r, hr⟩ := finish_large
  exact (c119_silent .logit (M := successes)
    (fun j => by simp [Split.Spec.weight, successes, Whole.pair]) (fun j => by simp [successes])
    successes_separated one_pos (by simp) rfl (by norm_num) _ _ hr).1

end Verif.Separation
