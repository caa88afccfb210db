import Mathlib.MeasureTheory.Integral.Layercake
import Mathlib.MeasureTheory.Measure.Lebesgue.Basic
import Mathlib.Analysis.MeanInequalities
import Mathlib.Analysis.Convex.Continuous
import Mathlib.MeasureTheory.Integral.Prod
import Mathlib.MeasureTheory.Integral.Pi
import Mathlib.Probability.Distributions.Gaussian.Real

/-!
# Integrals of log-concave functions are log-concave (Prékopa)
-/
namespace Verif.Prekopa

open MeasureTheory Set Metric
open scoped ENNReal

theorem add_ediam {A : Set ℝ} (hA : A.Nonempty) {a c m : ℝ≥0∞} (ha : a ≠ 0) (ha' : a ≠ ⊤)
    (h : ∀ x ∈ A, ∀ x' ∈ A, a * edist x x' + c ≤ m) : a * ediam A + c ≤ m := by
  rcases eq_or_ne m ⊤ with rfl | hm
  · exact le_top
  obtain ⟨x₀, h₀⟩ := hA
  have hcm : c ≤ m := le_add_self.trans (h x₀ h₀ x₀ h₀)
  have hc : c ≠ ⊤ := ne_top_of_le_ne_top hm hcm
  have hd : ediam A ≤ (m - c) / a := ediam_le fun x hx x' hx' => by
    rw [ENNReal.le_div_iff_mul_le (Or.inl ha) (Or.inl ha'), mul_comm]
    exact ENNReal.le_sub_of_add_le_right hc (h x hx x' hx')
  calc a * ediam A + c ≤ a * ((m - c) / a) + c := by gcongr
    _ = m := by rw [ENNReal.mul_div_cancel ha ha', tsub_add_cancel_of_le hcm]

/-- The inequality of Brunn and Minkowski on the line. -/
theorem brunn_minkowski {a b : ℝ} (ha : 0 < a) (hb : 0 < b) {A B S : Set ℝ} (hA : A.Nonempty)
    (hB : B.Nonempty) (hS : S.OrdConnected) (h : ∀ x ∈ A, ∀ y ∈ B, a * x + b * y ∈ S) :
    ENNReal.ofReal a * volume A + ENNReal.ofReal b * volume B ≤ volume S := by
  have key : ∀ x ∈ A, ∀ x' ∈ A, ∀ y ∈ B, ∀ y' ∈ B,
      ENNReal.ofReal a * edist x x' + ENNReal.ofReal b * edist y y' ≤ volume S := by
    intro x hx x' hx' y hy y' hy'
    have hmin : min x x' ∈ A := by rcases min_choice x x' with e | e <;> rw [e] <;> assumption
    have hmax : max x x' ∈ A := by rcases max_choice x x' with e | e <;> rw [e] <;> assumption
    have hmin' : min y y' ∈ B := by rcases min_choice y y' with e | e <;> rw [e] <;> assumption
    have hmax' : max y y' ∈ B := by rcases max_choice y y' with e | e <;> rw [e] <;> assumption
    have h1 := hS.out (h _ hmin _ hmin') (h _ hmax _ hmax')
    refine le_trans (le_of_eq ?_) (measure_mono h1)
    rw [Real.volume_Icc, edist_dist, edist_dist, Real.dist_eq, Real.dist_eq, ← ENNReal.ofReal_mul ha.le,
      ← ENNReal.ofReal_mul hb.le, ← ENNReal.ofReal_add (by positivity) (by positivity),
      ← max_sub_min_eq_abs', ← max_sub_min_eq_abs']
    congr 1
    ring
  have ha0 : ENNReal.ofReal a ≠ 0 := by simpa using ha
  have hb0 : ENNReal.ofReal b ≠ 0 := by simpa using hb
  calc _ ≤ ENNReal.ofReal a * ediam A + ENNReal.ofReal b * ediam B :=
        add_le_add (mul_le_mul_right (Real.volume_le_diam A) _) (mul_le_mul_right (Real.volume_le_diam B) _)
    _ ≤ _ := by
      refine add_ediam hA ha0 ENNReal.ofReal_ne_top fun x hx x' hx' => ?_
      rw [add_comm]
      refine add_ediam hB hb0 ENNReal.ofReal_ne_top fun y hy y' hy' => ?_
      rw [add_comm]
      exact key x hx x' hx' y hy y' hy'

/-- The inequality of Prékopa and Leindler on the line, for functions that are bounded and positive. -/
theorem prekopa_leindler {a b : ℝ} (ha : 0 < a) (hb : 0 < b) (hab : a + b = 1) {F G H : ℝ → ℝ}
    (hF : ∀ x, 0 < F x) (hG : ∀ x, 0 < G x) (hH : ∀ x, 0 < H x) (iF : Integrable F) (iG : Integrable G)
    (iH : Integrable H) (bF : BddAbove (range F)) (bG : BddAbove (range G))
    (hS : ∀ c, {x | c < H x}.OrdConnected) (h : ∀ x y, F x ^ a * G y ^ b ≤ H (a * x + b * y)) :
    (∫ x, F x) ^ a * (∫ x, G x) ^ b ≤ ∫ x, H x := by
  set M := ⨆ x, F x with hM
  set N := ⨆ x, G x with hN
  have M0 : 0 < M := (hF 0).trans_le (le_ciSup bF 0)
  have N0 : 0 < N := (hG 0).trans_le (le_ciSup bG 0)
  set K := M ^ a * N ^ b with hK
  have K0 : 0 < K := mul_pos (Real.rpow_pos_of_pos M0 a) (Real.rpow_pos_of_pos N0 b)
  have level : ∀ c ∈ Ioi (0 : ℝ), ENNReal.ofReal a * volume {x | c < F x / M} +
      ENNReal.ofReal b * volume {x | c < G x / N} ≤ volume {x | c < H x / K} := by
    intro c hc
    have hc : 0 < c := hc
    rcases lt_or_ge c 1 with h1 | h1
    · have nF : {x | c < F x / M}.Nonempty := by
        obtain ⟨x, hx⟩ := exists_lt_of_lt_ciSup (show c * M < ⨆ x, F x by rw [← hM]; nlinarith)
        exact ⟨x, (lt_div_iff₀ M0).2 hx⟩
      have nG : {x | c < G x / N}.Nonempty := by
        obtain ⟨x, hx⟩ := exists_lt_of_lt_ciSup (show c * N < ⨆ x, G x by rw [← hN]; nlinarith)
        exact ⟨x, (lt_div_iff₀ N0).2 hx⟩
      refine brunn_minkowski ha hb nF nG ?_ fun x hx y hy => ?_
      · have := hS (c * K)
        simpa only [lt_div_iff₀ K0] using this
      · have hx' : c * M < F x := (lt_div_iff₀ M0).1 hx
        have hy' : c * N < G y := (lt_div_iff₀ N0).1 hy
        refine (lt_div_iff₀ K0).2 (lt_of_lt_of_le ?_ (h x y))
        have e : c * K = (c * M) ^ a * (c * N) ^ b := by
          rw [Real.mul_rpow hc.le M0.le, Real.mul_rpow hc.le N0.le, hK]
          calc c * (M ^ a * N ^ b) = (c ^ a * c ^ b) * (M ^ a * N ^ b) := by
                rw [← Real.rpow_add hc, hab, Real.rpow_one]
            _ = _ := by ring
        rw [e]
        exact mul_lt_mul'' (Real.rpow_lt_rpow (by positivity) hx' ha) (Real.rpow_lt_rpow (by positivity) hy' hb)
          (by positivity) (by positivity)
    · have eF : {x | c < F x / M} = ∅ := eq_empty_of_forall_notMem fun x (hx : c < F x / M) => by
        have := le_ciSup bF x
        rw [lt_div_iff₀ M0] at hx
        nlinarith
      have eG : {x | c < G x / N} = ∅ := eq_empty_of_forall_notMem fun x (hx : c < G x / N) => by
        have := le_ciSup bG x
        rw [lt_div_iff₀ N0] at hx
        nlinarith
      rw [eF, eG]
      simp
  have lay : ∀ {f : ℝ → ℝ} {c : ℝ}, (∀ x, 0 < f x) → 0 < c → Integrable f →
      ENNReal.ofReal (∫ x, f x / c) = ∫⁻ t in Ioi (0 : ℝ), volume {x | t < f x / c} := by
    intro f c hf hc hi
    have hn : 0 ≤ᵐ[volume] fun x => f x / c := Filter.Eventually.of_forall fun x => (div_pos (hf x) hc).le
    rw [ofReal_integral_eq_lintegral_ofReal (hi.div_const c) hn,
      lintegral_eq_lintegral_meas_lt _ hn (hi.div_const c).aemeasurable]
  have iH0 : 0 ≤ ∫ x, H x / K := integral_nonneg fun x => (div_pos (hH x) K0).le
  have iF0 : 0 ≤ ∫ x, F x := integral_nonneg fun x => (hF x).le
  have iG0 : 0 ≤ ∫ x, G x := integral_nonneg fun x => (hG x).le
  have main : a * (∫ x, F x / M) + b * (∫ x, G x / N) ≤ ∫ x, H x / K := by
    have h1 : 0 ≤ ∫ x, F x / M := integral_nonneg fun x => (div_pos (hF x) M0).le
    have h2 : 0 ≤ ∫ x, G x / N := integral_nonneg fun x => (div_pos (hG x) N0).le
    rw [← ENNReal.ofReal_le_ofReal_iff iH0, ENNReal.ofReal_add (by positivity) (by positivity),
      ENNReal.ofReal_mul ha.le, ENNReal.ofReal_mul hb.le, lay hF M0 iF, lay hG N0 iG, lay hH K0 iH]
    calc _ ≤ _ := add_le_add (lintegral_const_mul_le _ _) (lintegral_const_mul_le _ _)
      _ ≤ _ := le_lintegral_add _ _
      _ ≤ _ := setLIntegral_mono' measurableSet_Ioi level
  simp only [integral_div] at main
  have am := Real.geom_mean_le_arith_mean2_weighted ha.le hb.le (div_nonneg iF0 M0.le)
    (div_nonneg iG0 N0.le) hab
  rw [Real.div_rpow iF0 M0.le, Real.div_rpow iG0 N0.le, div_mul_div_comm, ← hK] at am
  have := am.trans main
  rwa [div_le_div_iff_of_pos_right K0] at this

open ProbabilityTheory

/-- For a given second argument, a concave function of two arguments is concave in the first. -/
theorem concave_left {U V : Type*} [AddCommGroup U] [Module ℝ U] [AddCommGroup V] [Module ℝ V]
    {ℓ : U → V → ℝ} (hc : ConcaveOn ℝ univ fun x : U × V => ℓ x.1 x.2) (v : V) :
    ConcaveOn ℝ univ fun u => ℓ u v := by
  refine ⟨convex_univ, fun x _ y _ a b ha hb hab => ?_⟩
  have := hc.2 (mem_univ (x, v)) (mem_univ (y, v)) ha hb hab
  have e : a • v + b • v = v := by rw [← add_smul, hab, one_smul]
  simpa only [Prod.smul_mk, Prod.mk_add_mk, e] using this

/-- One variable integrated out. -/
theorem marginal_one {V : Type*} [AddCommGroup V] [Module ℝ V] {ℓ : ℝ → V → ℝ}
    (hc : ConcaveOn ℝ univ fun x : ℝ × V => ℓ x.1 x.2) {C : V → ℝ}
    (hb : ∀ t v, Real.exp (ℓ t v) ≤ C v * gaussianPDFReal 0 1 t) :
    (∀ v, Integrable fun t => Real.exp (ℓ t v)) ∧ (∀ v, 0 < ∫ t, Real.exp (ℓ t v)) ∧
      (∀ v, ∫ t, Real.exp (ℓ t v) ≤ C v) ∧
      ConcaveOn ℝ univ fun v => Real.log (∫ t, Real.exp (ℓ t v)) := by
  have hcont : ∀ v, Continuous fun t => Real.exp (ℓ t v) := fun v => Real.continuous_exp.comp
    (continuousOn_univ.1 (ConcaveOn.continuousOn isOpen_univ (concave_left hc v)))
  have hint : ∀ v, Integrable fun t => Real.exp (ℓ t v) := fun v =>
    ((integrable_gaussianPDFReal 0 1).const_mul (C v)).mono' (hcont v).aestronglyMeasurable
      (Filter.Eventually.of_forall fun t => by
        rw [Real.norm_eq_abs, abs_of_pos (Real.exp_pos _)]
        exact hb t v)
  have hpos : ∀ v, 0 < ∫ t, Real.exp (ℓ t v) := fun v =>
    integral_exp_pos (hint v)
  refine ⟨hint, hpos, fun v => ?_, convex_univ, fun v _ w _ a b ha hb' hab => ?_⟩
  · calc _ ≤ ∫ t, C v * gaussianPDFReal 0 1 t :=
          integral_mono (hint v) ((integrable_gaussianPDFReal 0 1).const_mul (C v)) fun t => hb t v
      _ = C v := by rw [integral_const_mul, integral_gaussianPDFReal_eq_one 0 one_ne_zero, mul_one]
  · rcases ha.eq_or_lt with rfl | ha
    · obtain rfl : b = 1 := by linarith
      simp
    rcases hb'.eq_or_lt with rfl | hb'
    · obtain rfl : a = 1 := by linarith
      simp
    have bdd : ∀ v, BddAbove (range fun t => Real.exp (ℓ t v)) := fun v => by
      refine ⟨C v * gaussianPDFReal 0 1 0, ?_⟩
      rintro _ ⟨t, rfl⟩
      have hp0 := gaussianPDFReal_pos 0 1 0 one_ne_zero
      have hC : 0 ≤ C v := by
        by_contra hn
        have := (Real.exp_pos _).trans_le (hb 0 v)
        nlinarith
      refine (hb t v).trans (mul_le_mul_of_nonneg_left ?_ hC)
      unfold gaussianPDFReal
      refine mul_le_mul_of_nonneg_left (Real.exp_le_exp.2 ?_) (by positivity)
      simp only [sub_zero, NNReal.coe_one, mul_one]
      have := sq_nonneg t
      simp only [ne_eq, OfNat.ofNat_ne_zero, not_false_eq_true, zero_pow, neg_zero, zero_div]
      linarith
    have pl := prekopa_leindler ha hb' hab (fun t => Real.exp_pos (ℓ t v)) (fun t => Real.exp_pos (ℓ t w))
      (fun t => Real.exp_pos (ℓ t (a • v + b • w))) (hint v) (hint w) (hint _) (bdd v) (bdd w)
      (fun c => by
        refine (Convex.ordConnected ?_)
        intro x hx y hy a' b' ha' hb'' hab'
        have h1 := (concave_left hc (a • v + b • w)).2 (mem_univ x) (mem_univ y) ha' hb'' hab'
        rcases le_or_gt c 0 with h0 | h0
        · exact h0.trans_lt (Real.exp_pos _)
        · have hx' : Real.log c < ℓ x (a • v + b • w) := (Real.log_lt_iff_lt_exp h0).2 hx
          have hy' : Real.log c < ℓ y (a • v + b • w) := (Real.log_lt_iff_lt_exp h0).2 hy
          refine (Real.log_lt_iff_lt_exp h0).1 (lt_of_lt_of_le ?_ h1)
          exact (convex_Ioi (Real.log c)) hx' hy' ha' hb'' hab')
      fun x y => by
        rw [← Real.exp_mul, ← Real.exp_mul, ← Real.exp_add]
        refine Real.exp_le_exp.2 ?_
        have := hc.2 (mem_univ (x, v)) (mem_univ (y, w)) ha.le hb'.le hab
        simp only [Prod.smul_mk, Prod.mk_add_mk, smul_eq_mul] at this
        linarith
    have := Real.log_le_log (mul_pos (Real.rpow_pos_of_pos (hpos v) a) (Real.rpow_pos_of_pos (hpos w) b)) pl
    rw [Real.log_mul (Real.rpow_pos_of_pos (hpos v) a).ne' (Real.rpow_pos_of_pos (hpos w) b).ne',
      Real.log_rpow (hpos v), Real.log_rpow (hpos w)] at this
    exact this

/-- Any number of variables integrated out. -/
theorem marginal {V : Type*} [AddCommGroup V] [Module ℝ V] {C : V → ℝ} : ∀ {q : ℕ}
    {ℓ : (Fin q → ℝ) → V → ℝ}, (ConcaveOn ℝ univ fun x : (Fin q → ℝ) × V => ℓ x.1 x.2) →
    (∀ u v, Real.exp (ℓ u v) ≤ C v * ∏ r, gaussianPDFReal 0 1 (u r)) →
    ConcaveOn ℝ univ fun v => Real.log (∫ u, Real.exp (ℓ u v)) := by
  intro q
  induction q with
  | zero =>
    intro ℓ hc _
    have e : (fun v => Real.log (∫ u, Real.exp (ℓ u v))) = fun v => ℓ 0 v := by
      funext v
      have hv : (volume : Measure (Fin 0 → ℝ)) = Measure.dirac 0 := by
        rw [volume_pi, Measure.pi_of_empty]
        exact congrArg _ (Subsingleton.elim _ _)
      rw [hv, integral_dirac, Real.log_exp]
    rw [e]
    refine ⟨convex_univ, fun x _ y _ a b ha hb hab => ?_⟩
    have := hc.2 (mem_univ ((0 : Fin 0 → ℝ), x)) (mem_univ (0, y)) ha hb hab
    simpa using this
  | succ q ih =>
    intro ℓ hc hb
    have hc1 : ConcaveOn ℝ univ fun x : ℝ × ((Fin q → ℝ) × V) => ℓ (Fin.cons x.1 x.2.1) x.2.2 := by
      refine ⟨convex_univ, fun x _ y _ a b ha hb hab => ?_⟩
      have := hc.2 (mem_univ ((Fin.cons x.1 x.2.1 : Fin (q + 1) → ℝ), x.2.2))
        (mem_univ ((Fin.cons y.1 y.2.1 : Fin (q + 1) → ℝ), y.2.2)) ha hb hab
      refine this.trans (le_of_eq ?_)
      show ℓ _ _ = ℓ _ _
      congr 1
      funext i
      refine Fin.cases ?_ (fun i => ?_) i <;> simp
    obtain ⟨-, hpos, hle, hconc⟩ := marginal_one (ℓ := fun t (x : (Fin q → ℝ) × V) => ℓ (Fin.cons t x.1) x.2)
      hc1 (C := fun x => C x.2 * ∏ r, gaussianPDFReal 0 1 (x.1 r)) fun t x => by
        refine (hb _ _).trans (le_of_eq ?_)
        rw [Fin.prod_univ_succ]
        simp only [Fin.cons_zero, Fin.cons_succ]
        ring
    have h2 := ih (ℓ := fun u v => Real.log (∫ t, Real.exp (ℓ (Fin.cons t u) v))) hconc fun u v => by
      rw [Real.exp_log (hpos (u, v))]
      exact hle (u, v)
    refine h2.congr fun v _ => congrArg Real.log ?_
    have hcont : Continuous fun u => Real.exp (ℓ u v) := Real.continuous_exp.comp
      (continuousOn_univ.1 (ConcaveOn.continuousOn isOpen_univ (concave_left hc v)))
    have hint : Integrable fun u => Real.exp (ℓ u v) :=
      ((Integrable.fintype_prod (ι := Fin (q + 1)) (μ := fun _ => volume)
        (f := fun _ => gaussianPDFReal 0 1) fun _ => integrable_gaussianPDFReal 0 1).const_mul (C v)).mono'
        hcont.aestronglyMeasurable (Filter.Eventually.of_forall fun u => by
          rw [Real.norm_eq_abs, abs_of_pos (Real.exp_pos _)]
          exact hb u v)
    have hmp := (volume_preserving_piFinSuccAbove (fun _ : Fin (q + 1) => ℝ) 0).symm
    rw [← hmp.integral_comp' (fun u => Real.exp (ℓ u v))]
    have hint' := (hmp.integrable_comp_emb (MeasurableEquiv.measurableEmbedding _)).2 hint
    rw [Measure.volume_eq_prod] at hint' ⊢
    refine Eq.trans ?_ (integral_prod_symm _ hint').symm
    refine integral_congr_ae (Filter.Eventually.of_forall fun u => ?_)
    show Real.exp (Real.log (∫ t, Real.exp (ℓ (Fin.cons t u) v))) = _
    rw [Real.exp_log (hpos (u, v))]
    refine congrArg (integral volume) (funext fun t => ?_)
    show Real.exp (ℓ (Fin.cons t u) v) = Real.exp (ℓ (Fin.insertNth 0 t u) v)
    rw [Fin.insertNth_zero']

end Verif.Prekopa
