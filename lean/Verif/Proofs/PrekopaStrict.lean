import Verif.Proofs.Prekopa

/-!
# A strict form of the theorem of Prékopa

If a function of two arguments is strictly concave, then so is the logarithm of the integral of its
exponential over the first argument.
-/
namespace Verif.Prekopa

open MeasureTheory Set ProbabilityTheory Filter Topology

/-- A continuous function below a multiple of the normal density has a maximum. -/
theorem exists_max {F : ℝ → ℝ} (hF : Continuous F) (h0 : ∀ t, 0 < F t) {C : ℝ}
    (hC : ∀ t, F t ≤ C * gaussianPDFReal 0 1 t) : ∃ x, ∀ t, F t ≤ F x := by
  have hg : Tendsto (gaussianPDFReal 0 1) (cocompact ℝ) (𝓝 0) := by
    have h1 : Tendsto (fun t : ℝ => (Real.sqrt (2 * Real.pi * 1))⁻¹ * Real.exp (-‖t‖ ^ 2 / 2))
        (cocompact ℝ) (𝓝 ((Real.sqrt (2 * Real.pi * 1))⁻¹ * 0)) := by
      refine Tendsto.const_mul _ (Real.tendsto_exp_atBot.comp ?_)
      have h2 : Tendsto (fun t : ℝ => ‖t‖ ^ 2 / 2) (cocompact ℝ) atTop :=
        ((tendsto_pow_atTop two_ne_zero).comp (tendsto_norm_cocompact_atTop)).atTop_div_const two_pos
      refine (tendsto_neg_atTop_atBot.comp h2).congr fun t => ?_
      simp only [Function.comp_apply]
      ring
    rw [mul_zero] at h1
    refine h1.congr fun t => ?_
    simp [gaussianPDFReal]
  have hl : Tendsto F (cocompact ℝ) (𝓝 0) := by
    refine squeeze_zero (fun t => (h0 t).le) hC ?_
    simpa using hg.const_mul C
  exact hF.exists_forall_ge' 0 ((hl.eventually (gt_mem_nhds (h0 0))).mono fun _ h => h.le)

/-- One variable integrated out. -/
theorem marginal_one_strict {V : Type*} [AddCommGroup V] [Module ℝ V] {ℓ : ℝ → V → ℝ}
    (hc : StrictConcaveOn ℝ univ fun x : ℝ × V => ℓ x.1 x.2) {C : V → ℝ}
    (hb : ∀ t v, Real.exp (ℓ t v) ≤ C v * gaussianPDFReal 0 1 t) :
    StrictConcaveOn ℝ univ fun v => Real.log (∫ t, Real.exp (ℓ t v)) := by
  obtain ⟨hint, hpos, -, -⟩ := marginal_one hc.concaveOn hb
  have hcont : ∀ v, Continuous fun t => Real.exp (ℓ t v) := fun v => Real.continuous_exp.comp
    (continuousOn_univ.1 (ConcaveOn.continuousOn isOpen_univ (concave_left hc.concaveOn v)))
  refine ⟨convex_univ, fun v _ w _ hvw a b ha hb' hab => ?_⟩
  obtain ⟨x, hx⟩ := exists_max (hcont v) (fun t => Real.exp_pos _) (fun t => hb t v)
  obtain ⟨y, hy⟩ := exists_max (hcont w) (fun t => Real.exp_pos _) (fun t => hb t w)
  set z := a • v + b • w with hz
  set K := Real.exp (ℓ x v) ^ a * Real.exp (ℓ y w) ^ b with hK
  have K0 : 0 < K := mul_pos (Real.rpow_pos_of_pos (Real.exp_pos _) a) (Real.rpow_pos_of_pos (Real.exp_pos _) b)
  have hlt : K < Real.exp (ℓ (a * x + b * y) z) := by
    rw [hK, ← Real.exp_mul, ← Real.exp_mul, ← Real.exp_add]
    refine Real.exp_lt_exp.2 ?_
    have hne : (x, v) ≠ (y, w) := fun h => hvw (Prod.ext_iff.1 h).2
    have := hc.2 (mem_univ (x, v)) (mem_univ (y, w)) hne ha hb' hab
    simp only [Prod.smul_mk, Prod.mk_add_mk, smul_eq_mul] at this
    linarith
  set H : ℝ → ℝ := fun t => min (Real.exp (ℓ t z)) K with hH
  have Hcont : Continuous H := (hcont z).min continuous_const
  have H0 : ∀ t, 0 < H t := fun t => lt_min (Real.exp_pos _) K0
  have Hle : ∀ t, H t ≤ Real.exp (ℓ t z) := fun t => min_le_left _ _
  have Hint : Integrable H := (hint z).mono' Hcont.aestronglyMeasurable
    (Eventually.of_forall fun t => by
      rw [Real.norm_eq_abs, abs_of_pos (H0 t)]
      exact Hle t)
  have pl := prekopa_leindler ha hb' hab (fun t => Real.exp_pos (ℓ t v)) (fun t => Real.exp_pos (ℓ t w))
    H0 (hint v) (hint w) Hint ⟨_, by rintro _ ⟨t, rfl⟩; exact hx t⟩ ⟨_, by rintro _ ⟨t, rfl⟩; exact hy t⟩
    (fun c => by
      refine (Convex.ordConnected ?_)
      intro s hs t ht a' b' ha' hb'' hab'
      have hs' : c < Real.exp (ℓ s z) ∧ c < K := lt_min_iff.1 hs
      have ht' : c < Real.exp (ℓ t z) ∧ c < K := lt_min_iff.1 ht
      have h1 := (concave_left hc.concaveOn z).2 (mem_univ s) (mem_univ t) ha' hb'' hab'
      refine lt_min ?_ hs'.2
      rcases le_or_gt c 0 with h0 | h0
      · exact h0.trans_lt (Real.exp_pos _)
      · have hs2 : Real.log c < ℓ s z := (Real.log_lt_iff_lt_exp h0).2 hs'.1
        have ht2 : Real.log c < ℓ t z := (Real.log_lt_iff_lt_exp h0).2 ht'.1
        refine (Real.log_lt_iff_lt_exp h0).1 (lt_of_lt_of_le ?_ h1)
        exact (convex_Ioi (Real.log c)) hs2 ht2 ha' hb'' hab')
    fun s t => by
      refine le_min ?_ ?_
      · rw [← Real.exp_mul, ← Real.exp_mul, ← Real.exp_add]
        refine Real.exp_le_exp.2 ?_
        have := hc.concaveOn.2 (mem_univ (s, v)) (mem_univ (t, w)) ha.le hb'.le hab
        simp only [Prod.smul_mk, Prod.mk_add_mk, smul_eq_mul] at this
        linarith
      · exact mul_le_mul (Real.rpow_le_rpow (Real.exp_pos _).le (hx s) ha.le)
          (Real.rpow_le_rpow (Real.exp_pos _).le (hy t) hb'.le) (Real.rpow_pos_of_pos (Real.exp_pos _) b).le
          (Real.rpow_pos_of_pos (Real.exp_pos _) a).le
  have hstrict : ∫ t, H t < ∫ t, Real.exp (ℓ t z) := by
    rw [← sub_pos, ← integral_sub (hint z) Hint]
    refine (integral_pos_iff_support_of_nonneg (fun t => sub_nonneg.2 (Hle t)) ((hint z).sub Hint)).2 ?_
    have hopen : IsOpen {t | H t < Real.exp (ℓ t z)} := isOpen_lt Hcont (hcont z)
    refine (hopen.measure_pos volume ⟨a * x + b * y, ?_⟩).trans_le (measure_mono fun t ht => ?_)
    · exact (min_le_right _ _).trans_lt hlt
    · exact (sub_pos.2 ht).ne'
  have := Real.log_lt_log (mul_pos (Real.rpow_pos_of_pos (hpos v) a) (Real.rpow_pos_of_pos (hpos w) b))
    (pl.trans_lt hstrict)
  rw [Real.log_mul (Real.rpow_pos_of_pos (hpos v) a).ne' (Real.rpow_pos_of_pos (hpos w) b).ne',
    Real.log_rpow (hpos v), Real.log_rpow (hpos w)] at this
  exact this

/-- Any number of variables integrated out. -/
theorem marginal_strict {V : Type*} [AddCommGroup V] [Module ℝ V] {C : V → ℝ} : ∀ {q : ℕ}
    {ℓ : (Fin q → ℝ) → V → ℝ}, (StrictConcaveOn ℝ univ fun x : (Fin q → ℝ) × V => ℓ x.1 x.2) →
    (∀ u v, Real.exp (ℓ u v) ≤ C v * ∏ r, gaussianPDFReal 0 1 (u r)) →
    StrictConcaveOn ℝ univ fun v => Real.log (∫ u, Real.exp (ℓ u v)) := by
  intro q
  induction q with
  | zero =>
    intro ℓ hc _
    have e : (fun v => Real.log (∫ u, Real.exp (ℓ u v))) = fun v => ℓ 0 v := by
      funext v
      have hv : (volume : Measure (Fin 0 → ℝ)) = Measure.dirac 0 := by
        rw [volume_pi, Measure.pi_of_empty]
        exact congrArg _ (Subsingleton.elim _ _)
      rw [hv, integral_dirac, Real.log_exp]
    rw [e]
    refine ⟨convex_univ, fun x _ y _ hxy a b ha hb hab => ?_⟩
    have := hc.2 (mem_univ ((0 : Fin 0 → ℝ), x)) (mem_univ (0, y))
      (fun h => hxy (Prod.ext_iff.1 h).2) ha hb hab
    simpa using this
  | succ q ih =>
    intro ℓ hc hb
    have hc1 : StrictConcaveOn ℝ univ
        fun x : ℝ × ((Fin q → ℝ) × V) => ℓ (Fin.cons x.1 x.2.1) x.2.2 := by
      refine ⟨convex_univ, fun x _ y _ hxy a b ha hb hab => ?_⟩
      have hne : ((Fin.cons x.1 x.2.1 : Fin (q + 1) → ℝ), x.2.2) ≠
          ((Fin.cons y.1 y.2.1 : Fin (q + 1) → ℝ), y.2.2) := by
        intro h
        obtain ⟨h1, h2⟩ := Prod.ext_iff.1 h
        have h3 : x.1 = y.1 := by simpa using congrFun h1 0
        have h4 : x.2.1 = y.2.1 := funext fun i => by simpa using congrFun h1 i.succ
        exact hxy (Prod.ext h3 (Prod.ext h4 h2))
      have := hc.2 (mem_univ ((Fin.cons x.1 x.2.1 : Fin (q + 1) → ℝ), x.2.2))
        (mem_univ ((Fin.cons y.1 y.2.1 : Fin (q + 1) → ℝ), y.2.2)) hne ha hb hab
      refine this.trans_eq ?_
      show ℓ _ _ = ℓ _ _
      congr 1
      funext i
      refine Fin.cases ?_ (fun i => ?_) i <;> simp
    have hbound : ∀ (t : ℝ) (x : (Fin q → ℝ) × V), Real.exp (ℓ (Fin.cons t x.1) x.2) ≤
        (C x.2 * ∏ r, gaussianPDFReal 0 1 (x.1 r)) * gaussianPDFReal 0 1 t := by
      intro t x
      refine (hb _ _).trans (le_of_eq ?_)
      rw [Fin.prod_univ_succ]
      simp only [Fin.cons_zero, Fin.cons_succ]
      ring
    obtain ⟨-, hpos, hle, -⟩ := marginal_one (ℓ := fun t (x : (Fin q → ℝ) × V) => ℓ (Fin.cons t x.1) x.2)
      hc1.concaveOn (C := fun x => C x.2 * ∏ r, gaussianPDFReal 0 1 (x.1 r)) hbound
    have hstrict := marginal_one_strict (ℓ := fun t (x : (Fin q → ℝ) × V) => ℓ (Fin.cons t x.1) x.2)
      hc1 (C := fun x => C x.2 * ∏ r, gaussianPDFReal 0 1 (x.1 r)) hbound
    have h2 := ih (ℓ := fun u v => Real.log (∫ t, Real.exp (ℓ (Fin.cons t u) v))) hstrict fun u v => by
      rw [Real.exp_log (hpos (u, v))]
      exact hle (u, v)
    refine h2.congr fun v _ => congrArg Real.log ?_
    have hcont : Continuous fun u => Real.exp (ℓ u v) := Real.continuous_exp.comp
      (continuousOn_univ.1 (ConcaveOn.continuousOn isOpen_univ (concave_left hc.concaveOn v)))
    have hint : Integrable fun u => Real.exp (ℓ u v) :=
      ((Integrable.fintype_prod (ι := Fin (q + 1)) (μ := fun _ => volume)
        (f := fun _ => gaussianPDFReal 0 1) fun _ => integrable_gaussianPDFReal 0 1).const_mul (C v)).mono'
        hcont.aestronglyMeasurable (Filter.Eventually.of_forall fun u => by
          rw [Real.norm_eq_abs, abs_of_pos (Real.exp_pos _)]
          exact hb u v)
    have hmp := (volume_preserving_piFinSuccAbove (fun _ : Fin (q + 1) => ℝ) 0).symm
    rw [← hmp.integral_comp' (fun u => Real.exp (ℓ u v))]
    have hint' := (hmp.integrable_comp_emb (MeasurableEquiv.measurableEmbedding _)).2 hint
    rw [Measure.volume_eq_prod] at hint' ⊢
    refine Eq.trans ?_ (integral_prod_symm _ hint').symm
    refine integral_congr_ae (Filter.Eventually.of_forall fun u => ?_)
    show Real.exp (Real.log (∫ t, Real.exp (ℓ (Fin.cons t u) v))) = _
    rw [Real.exp_log (hpos (u, v))]
    refine congrArg (integral volume) (funext fun t => ?_)
    show Real.exp (ℓ (Fin.cons t u) v) = Real.exp (ℓ (Fin.insertNth 0 t u) v)
    rw [Fin.insertNth_zero']

end Verif.Prekopa
