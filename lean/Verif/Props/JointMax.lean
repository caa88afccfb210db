import Verif.Props.Separation

/-!
# C121: there is a maximum in the region that is searched just if there is no separation
-/
namespace Verif.Separation

open Verif.Split Verif.Family Verif.GLMM ProbabilityTheory MeasureTheory Filter Topology
open Verif.Separation.Spec

variable {q n p m : ℕ} {μ : ℝ → ℝ} {link : String}

/-- `tends_zero` with variance parameters that stay in a compact set. -/
theorem tends_zero_compact (hl : IsLink link μ) {M : ModFr q n p} (hw : ∀ j, 0 ≤ Split.Spec.weight M j)
    (hy : ∀ j, 0 ≤ M.resp j ∧ M.resp j ≤ 1) {K : Set (Fin m → ℝ)} (hK : IsCompact K)
    {theta : ℕ → Fin m → ℝ} (ht : ∀ i, theta i ∈ K) {b : ℕ → Fin p → ℝ} {j : Fin n}
    (hj : 0 < Split.Spec.weight M j)
    (h : (M.resp j < 1 ∧ Tendsto (fun i => move M (b i) j) atTop atTop) ∨
      (0 < M.resp j ∧ Tendsto (fun i => move M (b i) j) atTop atBot)) :
    Tendsto (fun i => likelihood M μ (List.ofFn (theta i)) (b i)) atTop (𝓝 0) := by
  have h0 : (0 : ℝ) = ∫ _ : Fin q → ℝ, (0 : ℝ) := by simp
  rw [h0]
  unfold likelihood
  refine tendsto_integral_of_dominated_convergence (fun u => ∏ r, gaussianPDFReal 0 1 (u r)) ?_ ?_ ?_ ?_
  · exact fun i => (Mode.c110_likelihood hl hw hy _ _).1.aestronglyMeasurable
  · exact Integrable.fintype_prod (μ := fun _ => volume) fun _ => integrable_gaussianPDFReal 0 1
  · refine fun i => Eventually.of_forall fun u => ?_
    rw [Real.norm_of_nonneg (Real.exp_pos _).le]
    exact Gradient.integrand_le hl hw hy _ _ u
  · refine Eventually.of_forall fun u => Real.tendsto_exp_atBot.comp ?_
    unfold Split.Spec.logIntegrand
    refine tendsto_atBot_add_const_right _ _ ?_
    have hcont : Continuous fun t : Fin m → ℝ =>
        ∑ r, (∑ c, Split.Spec.lambdat M (List.ofFn t) r c * M.Zt c j) * u r := by
      have e : (fun t : Fin m → ℝ => ∑ r, (∑ c, Split.Spec.lambdat M (List.ofFn t) r c * M.Zt c j) * u r) =
          fun t => Gradient.lin M m p j u (t, 0) := by
        funext t
        rw [Gradient.lin_apply, eta_split]
        simp [move]
      rw [e]
      exact (Gradient.lin M m p j u).continuous.comp (continuous_id.prodMk continuous_const)
    obtain ⟨B, hB⟩ := hK.exists_bound_of_continuousOn hcont.continuousOn
    have hlim : Tendsto (fun i => logLik μ (M.resp j) (Split.Spec.weight M j)
        (Split.Spec.eta M (List.ofFn (theta i)) (List.ofFn (b i)) u j)) atTop atBot := by
      simp only [eta_split]
      rcases h with ⟨h1, h2⟩ | ⟨h1, h2⟩
      · exact (logLik_top hl hj (hy j).1 h1).comp (tendsto_atTop_add_right_of_le _ (-B) h2
          fun i => (abs_le.1 (hB _ (ht i))).1)
      · exact (logLik_bot hl hj h1 (hy j).2).comp (tendsto_atBot_add_right_of_ge _ B h2
          fun i => (abs_le.1 (hB _ (ht i))).2)
    refine tendsto_atBot_mono (fun i => ?_) hlim
    rw [← Finset.add_sum_erase _ _ (Finset.mem_univ j)]
    have := Finset.sum_nonpos (s := Finset.univ.erase j) fun i' _ =>
      Mode.logLik_nonpos hl (hw i') (hy i').1 (hy i').2
        (Split.Spec.eta M (List.ofFn (theta i)) (List.ofFn (b i)) u i')
    linarith

/-- Along a sequence of movements that gets large, without separation, there is a subsequence along which
an observation disagrees. -/
theorem escape {M : ModFr q n p} (hM : Overlap M) {S : LinearMap.range (moves M) →ₗ[ℝ] (Fin p → ℝ)}
    (hS : ∀ v : LinearMap.range (moves M), moves M (S v) = v) {v : ℕ → LinearMap.range (moves M)}
    (hv : Tendsto (fun i => ‖v i‖) atTop atTop) : ∃ (φ : ℕ → ℕ) (j : Fin n), 0 < Split.Spec.weight M j ∧
      ((M.resp j < 1 ∧ Tendsto (fun i => move M (S (v (φ i))) j) atTop atTop) ∨
        (0 < M.resp j ∧ Tendsto (fun i => move M (S (v (φ i))) j) atTop atBot)) := by
  have hball : ∀ i, ‖v i‖⁻¹ • v i ∈ Metric.closedBall (0 : LinearMap.range (moves M)) 1 := by
    intro i
    rw [mem_closedBall_zero_iff, norm_smul, norm_inv, norm_norm]
    exact inv_mul_le_one
  obtain ⟨d, -, φ, hφ, hd⟩ := (isCompact_closedBall (0 : LinearMap.range (moves M)) 1).tendsto_subseq hball
  have hnφ : Tendsto (fun i => ‖v (φ i)‖) atTop atTop := hv.comp hφ.tendsto_atTop
  have hd1 : ‖d‖ = 1 := by
    refine tendsto_nhds_unique hd.norm (tendsto_const_nhds.congr' ?_)
    filter_upwards [hnφ.eventually_gt_atTop 0] with i hi
    simp only [Function.comp_apply, norm_smul, norm_inv, norm_norm]
    rw [inv_mul_cancel₀ hi.ne']
  have hd0 : moves M (S d) ≠ 0 := by
    rw [hS]
    intro h
    have : d = 0 := Subtype.ext h
    rw [this, norm_zero] at hd1
    exact zero_ne_one hd1
  obtain ⟨j, hj, hdis⟩ := disagree hM hd0
  have hcoord : Tendsto (fun i => ‖v (φ i)‖⁻¹ * (v (φ i) : Fin n → ℝ) j) atTop (𝓝 ((d : Fin n → ℝ) j)) :=
    ((continuous_apply j).comp continuous_subtype_val).continuousAt.tendsto.comp hd
  have hmove : ∀ᶠ i in atTop, ‖v (φ i)‖ * (‖v (φ i)‖⁻¹ * (v (φ i) : Fin n → ℝ) j) =
      move M (S (v (φ i))) j := by
    filter_upwards [hnφ.eventually_gt_atTop 0] with i hi
    rw [← moves_apply hj, hS, mul_inv_cancel_left₀ hi.ne']
  refine ⟨φ, j, hj, ?_⟩
  rw [hS] at hdis
  rcases hdis with ⟨h1, h2⟩ | ⟨h1, h2⟩
  · exact Or.inl ⟨h1, (hnφ.atTop_mul_pos h2 hcoord).congr' hmove⟩
  · exact Or.inr ⟨h1, (hnφ.atTop_mul_neg h2 hcoord).congr' hmove⟩

/-- C121: for variance parameters in a compact set and any fixed effects, the likelihood has a maximum
just if successes and failures are not separated. -/
theorem c121 (hl : IsLink link μ) {M : ModFr q n p} (hw : ∀ j, 0 ≤ Split.Spec.weight M j)
    (hy : ∀ j, 0 ≤ M.resp j ∧ M.resp j ≤ 1) {K : Set (Fin m → ℝ)} (hK : IsCompact K) (hne : K.Nonempty) :
    (∃ theta ∈ K, ∃ b, ∀ theta' ∈ K, ∀ b',
      likelihood M μ (List.ofFn theta') b' ≤ likelihood M μ (List.ofFn theta) b) ↔ Overlap M := by
  constructor
  · rintro ⟨theta, ht, b, h⟩
    exact (c118 hl hw hy (List.ofFn theta)).1 ⟨b, h theta ht⟩
  · intro hM
    set V := LinearMap.range (moves M) with hV
    obtain ⟨S, hS⟩ := (moves M).rangeRestrict.exists_rightInverse_of_surjective
      (LinearMap.range_rangeRestrict _)
    have hS' : ∀ v : V, moves M (S v) = v := fun v => by
      have := LinearMap.congr_fun hS v
      exact congrArg Subtype.val this
    have hSc : Continuous S := S.continuous_of_finiteDimensional
    set F : (Fin m → ℝ) × V → ℝ := fun x => likelihood M μ (List.ofFn x.1) (S x.2) with hF
    have hFc : Continuous F := by
      have h := NoVariance.c112_continuous (M := M) hl hw hy m p
      have h2 : Continuous fun x : (Fin m → ℝ) × V => (x.1, S x.2) :=
        continuous_fst.prodMk (hSc.comp continuous_snd)
      have := h.comp h2
      simpa [Function.comp_def, hF, likelihood] using this
    set s : Set ((Fin m → ℝ) × V) := Prod.fst ⁻¹' K with hs
    have hsc : IsClosed s := hK.isClosed.preimage continuous_fst
    obtain ⟨R, hR⟩ := hK.isBounded.exists_norm_le
    have hlim : Tendsto F (cocompact ((Fin m → ℝ) × V) ⊓ 𝓟 s) (𝓝 0) := by
      rw [← Metric.cobounded_eq_cocompact, ← comap_norm_atTop]
      refine tendsto_of_subseq_tendsto fun ns' hns' => ?_
      obtain ⟨hns1', hns2'⟩ := tendsto_inf.1 hns'
      obtain ⟨N, hN⟩ := eventually_atTop.1 (tendsto_principal.1 hns2')
      set ns : ℕ → (Fin m → ℝ) × V := fun i => ns' (i + N) with hnsdef
      have hmem : ∀ i, (ns i).1 ∈ K := fun i => hN (i + N) (Nat.le_add_left _ _)
      have hnorm0 : Tendsto (fun i => ‖ns i‖) atTop atTop :=
        (tendsto_comap_iff.1 hns1').comp (tendsto_add_atTop_nat N)
      have hnorm : Tendsto (fun i => ‖(ns i).2‖) atTop atTop := by
        refine hnorm0.congr' ?_
        filter_upwards [hnorm0.eventually_gt_atTop R] with i hi
        rw [Prod.norm_def] at hi ⊢
        rcases max_choice ‖(ns i).1‖ ‖(ns i).2‖ with e | e
        · rw [e] at hi
          exact absurd (hR _ (hmem i)) (not_le.2 hi)
        · exact e
      obtain ⟨φ, j, hj, h⟩ := escape hM hS' hnorm
      exact ⟨fun i => φ i + N, tends_zero_compact hl hw hy hK (theta := fun i => (ns (φ i)).1)
        (fun i => hmem _) (b := fun i => S (ns (φ i)).2) hj h⟩
    obtain ⟨t0, ht0⟩ := hne
    have hpos : 0 < F (t0, 0) := by
      rw [hF]
      exact (Mode.c110_likelihood hl hw hy (List.ofFn t0) (List.ofFn (S 0))).2.1
    have hmem : (t0, (0 : V)) ∈ s := by
      rw [hs, Set.mem_preimage]
      exact ht0
    obtain ⟨x, hx, hmax⟩ := hFc.continuousOn.exists_isMaxOn' hsc hmem
      ((hlim.eventually (gt_mem_nhds hpos)).mono fun _ h => h.le)
    refine ⟨x.1, hx, S x.2, fun theta' ht' b' => ?_⟩
    have h1 : moves M (S ⟨moves M b', LinearMap.mem_range_self _ _⟩) = moves M b' := hS' _
    rw [← likelihood_moves hw (List.ofFn theta') h1]
    have hm := isMaxOn_iff.1 hmax (theta', ⟨moves M b', LinearMap.mem_range_self _ _⟩) (by
      rw [hs, Set.mem_preimage]
      exact ht')
    rw [hF] at hm
    exact hm

/-- The variance parameters that `optimize_glmm` does not exclude (R/optimization.R:21-22): at most 5 in
size. -/
def searched (m : ℕ) : Set (Fin m → ℝ) := {t | ∀ i, |t i| ≤ 5}

theorem searched_compact (m : ℕ) : IsCompact (searched m) := by
  have e : searched m = Set.pi Set.univ fun _ => Set.Icc (-5) 5 := by
    ext t
    simp only [searched, abs_le, Set.mem_setOf_eq, Set.mem_pi, Set.mem_univ, true_imp_iff, Set.mem_Icc]
  rw [e]
  exact isCompact_univ_pi fun _ => isCompact_Icc

/-- C121, for the region that is searched. -/
theorem c121_searched (hl : IsLink link μ) {M : ModFr q n p} (hw : ∀ j, 0 ≤ Split.Spec.weight M j)
    (hy : ∀ j, 0 ≤ M.resp j ∧ M.resp j ≤ 1) (m : ℕ) :
    (∃ theta ∈ searched m, ∃ b, ∀ theta' ∈ searched m, ∀ b',
      likelihood M μ (List.ofFn theta') b' ≤ likelihood M μ (List.ofFn theta) b) ↔ Overlap M :=
  c121 hl hw hy (searched_compact m) ⟨0, fun i => by simp⟩

/-- The model `pair`: there is a maximum. -/
example : ∃ theta ∈ searched 1, ∃ b, ∀ theta' ∈ searched 1, ∀ b',
    likelihood Whole.pair expit (List.ofFn theta') b' ≤ likelihood Whole.pair expit (List.ofFn theta) b :=
  (c121_searched .logit (fun j => by simp [Split.Spec.weight, Whole.pair])
    (fun j => by fin_cases j <;> simp [Whole.pair]) 1).2 pair_overlap

/-- The model `successes`: there is none. -/
example : ¬ ∃ theta ∈ searched 1, ∃ b, ∀ theta' ∈ searched 1, ∀ b',
    likelihood successes expit (List.ofFn theta') b' ≤ likelihood successes expit (List.ofFn theta) b :=
  fun h => successes_separated ((c121_searched .logit
    (fun j => by simp [Split.Spec.weight, successes, Whole.pair]) (fun j => by simp [successes]) 1).1 h)

end Verif.Separation
