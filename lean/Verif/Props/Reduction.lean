import Verif.Props.Factorization
import Verif.Proofs.ClusterRuns
import Mathlib.MeasureTheory.Integral.Pi

/-!
# C70, C71: sequential reduction of a model with exact local integrals gives its likelihood
-/
namespace Verif.Split

open Verif.Split.Spec Verif.GLMM Verif.Family Verif.Pars Verif.ClusterGraph Verif.DepGraph
open MeasureTheory
open scoped ENNReal

variable {q n p : ℕ}

/-! ## Specification -/

/-- A mean moved into `[1e-8, 1 - 1e-8]`. -/
noncomputable def Spec.moved (m : ℝ) : ℝ := max 1e-8 (min m (1 - 1e-8))

/-- Log-likelihood of one observation with the mean moved into `[1e-8, 1 - 1e-8]`. -/
noncomputable def Spec.logLikClamped (μ : ℝ → ℝ) : ℝ → ℝ → ℝ → ℝ := logLik fun x => moved (μ x)

/-- Log-likelihood of all observations for given random effects. -/
noncomputable def Spec.logLikGiven (L : ℝ → ℝ → ℝ → ℝ) (M : ModFr q n p) (theta beta : List ℝ)
    (u : Fin q → ℝ) : ℝ :=
  ∑ j, L (M.resp j) (weight M j) (Spec.eta M theta beta u j)

/-- Likelihood of the model: the integral over the random effects, which are independent standard
normal. `L y w` is the log-likelihood of one observation as a function of the linear predictor. -/
noncomputable def Spec.marginal (L : ℝ → ℝ → ℝ → ℝ) (M : ModFr q n p) (theta beta : List ℝ) : ℝ :=
  ∫ u : Fin q → ℝ, Real.exp (logLikGiven L M theta beta u) *
    ∏ r, ProbabilityTheory.gaussianPDFReal 0 1 (u r)

/-- A belief of exact sequential reduction represents a factor: it has the same items (those of the
constructors in src/MixedContinuousBeliefVector.cpp:9-32) and the same values. -/
def Represents (pars : Parameters) (t : Term q p) (b : Fn) : Prop :=
  b.1 = (match t with
    | .glmm C _ _ => C.map fun i : Fin q => (i : ℤ)
    | .normal i _ _ => [(i : ℤ)]) ∧
  ∀ a : ℤ → ℝ, Evaluates pars (fun i => a i) t (b.2 a)

/-! ## The family -/

theorem moved_eq (m : ℝ) : Binomial.checkMean (fun _ : Fin n => m) = fun _ => moved m := by
  funext i
  unfold Binomial.checkMean Binomial.epsilon moved
  dsimp only
  split_ifs with h1 h2 h2
  · norm_num at h2
  · rw [min_eq_left (by linarith [(by norm_num : (1e-8 : ℝ) ≤ 1 - 1e-8)]), max_eq_left h1.le]
  · rw [min_eq_right (by linarith), max_eq_right (by norm_num)]
  · rw [min_eq_left (by linarith), max_eq_right (by linarith)]

theorem moved_mem (m : ℝ) : 1e-8 ≤ moved m ∧ moved m ≤ 1 - 1e-8 := by
  unfold moved
  exact ⟨le_max_left _ _, max_le (by norm_num) (min_le_right _ _)⟩

theorem family_clamped {link : String} {μ : ℝ → ℝ} (hl : IsLink link μ) {f : Family}
    (hf : Family.ofNames "binomial" link = Except.ok f) (m : ℕ) (eta y w : Fin m → ℝ) :
    f.evaluate eta y w = Except.ok (∑ i, logLikClamped μ (y i) (w i) (eta i)) := by
  have h0 : ∀ (mean : Fin m → ℝ) i, Binomial.checkMean mean i = moved (mean i) := fun mean i =>
    congrFun (moved_eq (n := m) (mean i)) i
  rcases hl with _ | _
  · have hf := Except.ok.inj hf
    subst hf
    show Except.ok (Binomial.evaluate (Binomial.checkMean (LogitLink.computeMean eta)) y w) = _
    unfold Binomial.evaluate
    simp only [h0]
    congr 1
    refine Finset.sum_congr rfl fun i _ => ?_
    rw [logLikClamped, logLik, ← lo0_eq]
    rfl
  · have hf := Except.ok.inj hf
    subst hf
    show Except.ok (Binomial.evaluate (Binomial.checkMean (ProbitLink.computeMean eta)) y w) = _
    unfold Binomial.evaluate
    simp only [h0]
    congr 1
    refine Finset.sum_congr rfl fun i _ => ?_
    rw [logLikClamped, logLik, ← normalCdf_eq]
    rfl

theorem link_measurable {link : String} {μ : ℝ → ℝ} (hl : IsLink link μ) : Measurable μ := by
  obtain ⟨μ1, μ2, μ3, μ4, h⟩ := linkOk hl
  exact (continuous_iff_continuousAt.2 fun x => (h.d1 x).continuousAt).measurable

theorem moved_measurable : Measurable moved := by
  unfold moved
  fun_prop

theorem logLik_measurable {μ : ℝ → ℝ} (hμ : Measurable μ) (y w : ℝ) : Measurable (logLik μ y w) := by
  unfold logLik
  fun_prop

theorem logLikClamped_measurable {μ : ℝ → ℝ} (hμ : Measurable μ) (y w : ℝ) :
    Measurable (logLikClamped μ y w) :=
  logLik_measurable (moved_measurable.comp hμ) y w

theorem log_bounded {m : ℝ} (h1 : 1e-8 ≤ m) (h2 : m ≤ 1 - 1e-8) : |Real.log m| ≤ -Real.log 1e-8 := by
  have h0 : (0 : ℝ) < 1e-8 := by norm_num
  rw [abs_of_nonpos (Real.log_nonpos (by linarith) (by linarith)), neg_le_neg_iff]
  exact Real.log_le_log h0 h1

theorem logLikClamped_bounded (μ : ℝ → ℝ) (y w : ℝ) : ∃ K, ∀ x, |logLikClamped μ y w x| ≤ K := by
  refine ⟨|w| * (|y| * (-Real.log 1e-8) + |1 - y| * (-Real.log 1e-8)), fun x => ?_⟩
  obtain ⟨h1, h2⟩ := moved_mem (μ x)
  rw [logLikClamped, logLik, abs_mul]
  refine mul_le_mul_of_nonneg_left ?_ (abs_nonneg _)
  refine (abs_add_le _ _).trans (add_le_add ?_ ?_)
  · rw [abs_mul]
    exact mul_le_mul_of_nonneg_left (log_bounded h1 h2) (abs_nonneg _)
  · rw [abs_mul]
    exact mul_le_mul_of_nonneg_left (log_bounded (by linarith) (by linarith)) (abs_nonneg _)

theorem eta_measurable (M : ModFr q n p) (theta beta : List ℝ) (j : Fin n) :
    Measurable fun u : Fin q → ℝ => Spec.eta M theta beta u j := by
  unfold Spec.eta
  refine measurable_const.add (Finset.measurable_sum _ fun r _ => ?_)
  exact measurable_const.mul (measurable_pi_apply r)

theorem logLikGiven_measurable {L : ℝ → ℝ → ℝ → ℝ} (hL : ∀ y w, Measurable (L y w))
    (M : ModFr q n p) (theta beta : List ℝ) : Measurable (logLikGiven L M theta beta) := by
  unfold logLikGiven
  exact Finset.measurable_sum _ fun j _ => (hL _ _).comp (eta_measurable M theta beta j)

/-! ## The factors of a model -/

/-- The values of the factor of a clique. -/
theorem glmm_value {link : String} {μ : ℝ → ℝ} (hl : IsLink link μ) {M : ModFr q n p}
    {pars : Parameters} (hfam : Family.ofNames "binomial" link = Except.ok pars.family)
    (hM : WellFormed M pars.theta.length) (hb : pars.beta.length = p) (C : List (Fin q))
    (obs : List (Fin n)) {b : Fn}
    (h : Represents pars (.glmm C obs.length (findLocalTerm C obs M)) b) (a : ℤ → ℝ) :
    b.2 a = ∑ i, logLikClamped μ (M.resp (obs.get i)) (weight M (obs.get i))
      (GLMM.Spec.eta (findLocalTerm C obs M) pars.theta pars.beta (fun r => a (C.get r)) i) :=
  evaluates_unique (h.2 a) (term_value hM hb (g := fun e y w => logLikClamped μ y w e)
    (family_clamped hl hfam) (fun i => a i) C obs)

theorem normal_term_value {pars : Parameters} {i : Fin q} {b : Fn}
    (h : Represents (p := p) pars (.normal i 0 1) b) (a : ℤ → ℝ) :
    b.2 a = Real.log (ProbabilityTheory.gaussianPDFReal 0 1 (a i)) + literalError :=
  evaluates_unique (h.2 a) (normal_value (fun i : Fin q => a i) i pars)

theorem exists_represents {link : String} {μ : ℝ → ℝ} (hl : IsLink link μ) {M : ModFr q n p}
    {pars : Parameters} (hfam : Family.ofNames "binomial" link = Except.ok pars.family)
    (hM : WellFormed M pars.theta.length) (hb : pars.beta.length = p)
    {ext : List (List (Fin q) × List (Fin n))} : ∃ beliefs, List.Forall₂ (Represents pars)
      ((ext.map fun e => Term.glmm e.1 e.2.length (findLocalTerm e.1 e.2 M)) ++
        (List.finRange q).map (fun i => Term.normal i 0 1)) beliefs := by
  refine ⟨(ext.map fun e => (e.1.map fun i : Fin q => (i : ℤ), fun a => ∑ i,
      logLikClamped μ (M.resp (e.2.get i)) (weight M (e.2.get i))
        (GLMM.Spec.eta (findLocalTerm e.1 e.2 M) pars.theta pars.beta (fun r => a (e.1.get r)) i))) ++
    (List.finRange q).map fun i : Fin q => ([((i : ℕ) : ℤ)], fun a =>
      Real.log (ProbabilityTheory.gaussianPDFReal 0 1 (a i)) + literalError), ?_⟩
  refine List.rel_append ?_ ?_
  · rw [List.forall₂_map_left_iff, List.forall₂_map_right_iff, List.forall₂_same]
    intro e _
    exact ⟨rfl, fun a => term_value hM hb (g := fun e y w => logLikClamped μ y w e)
      (family_clamped hl hfam) (fun i => a i) e.1 e.2⟩
  · rw [List.forall₂_map_left_iff, List.forall₂_map_right_iff, List.forall₂_same]
    intro i _
    exact ⟨rfl, fun a => normal_value (fun i : Fin q => a i) i pars⟩

theorem forall₂_mem_right {α β : Type} {R : α → β → Prop} {l : List α} {m : List β}
    (h : List.Forall₂ R l m) : ∀ b ∈ m, ∃ a ∈ l, R a b := by
  induction h with
  | nil => simp
  | cons h _ ih =>
    intro b hb
    rcases List.mem_cons.1 hb with rfl | hb
    · exact ⟨_, List.mem_cons_self, h⟩
    · obtain ⟨a, ha, hr⟩ := ih b hb
      exact ⟨a, List.mem_cons_of_mem _ ha, hr⟩

theorem forall₂_mem_left {α β : Type} {R : α → β → Prop} {l : List α} {m : List β}
    (h : List.Forall₂ R l m) : ∀ a ∈ l, ∃ b ∈ m, R a b := by
  induction h with
  | nil => simp
  | cons h _ ih =>
    intro b hb
    rcases List.mem_cons.1 hb with rfl | hb
    · exact ⟨_, List.mem_cons_self, h⟩
    · obtain ⟨a, ha, hr⟩ := ih b hb
      exact ⟨a, List.mem_cons_of_mem _ ha, hr⟩

theorem glmm_wf {link : String} {μ : ℝ → ℝ} (hl : IsLink link μ) {M : ModFr q n p}
    {pars : Parameters} (hfam : Family.ofNames "binomial" link = Except.ok pars.family)
    (hM : WellFormed M pars.theta.length) (hb : pars.beta.length = p) {C : List (Fin q)}
    (hC : C.Nodup) (obs : List (Fin n)) {b : Fn}
    (h : Represents pars (.glmm C obs.length (findLocalTerm C obs M)) b) (T : Finset ℤ) :
    ExactWF b ∧ Tame T 0 b.2 := by
  have hv := glmm_value hl hfam hM hb C obs h
  have h1 : b.1 = C.map fun i : Fin q => (i : ℤ) := h.1
  refine ⟨⟨?_, ?_, ?_⟩, ?_⟩
  · rw [h1]
    exact hC.map fun i j hij => by simpa [Fin.ext_iff] using hij
  · rw [show b.2 = _ from funext hv]
    refine Finset.measurable_sum _ fun i _ => (logLikClamped_measurable (link_measurable hl) _ _).comp ?_
    unfold GLMM.Spec.eta
    refine measurable_const.add (Finset.measurable_sum _ fun r _ => ?_)
    exact measurable_const.mul (measurable_pi_apply _)
  · intro a a' haa
    rw [hv, hv]
    have : (fun r => a (C.get r)) = fun r => a' (C.get r) := by
      funext r
      refine haa _ ?_
      rw [h1]
      exact List.mem_map_of_mem (List.get_mem _ _)
    rw [this]
  · choose K hK using fun i : Fin obs.length =>
      logLikClamped_bounded μ (M.resp (obs.get i)) (weight M (obs.get i))
    refine ⟨-∑ i, K i, ∑ i, K i, fun a => ?_⟩
    have : |b.2 a| ≤ ∑ i, K i := by
      rw [hv]
      exact (Finset.abs_sum_le_sum_abs _ _).trans (Finset.sum_le_sum fun i _ => hK i _)
    simpa [abs_le] using this

theorem normal_wf {pars : Parameters} {i : Fin q} {b : Fn}
    (h : Represents (p := p) pars (.normal i 0 1) b) {T : Finset ℤ} (hT : (i : ℤ) ∈ T) :
    b.1 = [(i : ℤ)] ∧ ExactWF b ∧ Tame T (Pi.single (i : ℤ) 1) b.2 := by
  have hv := normal_term_value h
  have h1 : b.1 = [(i : ℤ)] := h.1
  refine ⟨h1, ⟨?_, ?_, ?_⟩, ?_⟩
  · rw [h1]
    simp
  · rw [show b.2 = _ from funext hv]
    refine Measurable.add_const ?_ _
    exact Real.measurable_log.comp ((ProbabilityTheory.measurable_gaussianPDFReal 0 1).comp
      (measurable_pi_apply _))
  · intro a a' haa
    rw [hv, hv, haa _ (by rw [h1]; simp)]
  · refine ⟨Real.log (ProbabilityTheory.gaussianPDFReal 0 1 0) + literalError,
      Real.log (ProbabilityTheory.gaussianPDFReal 0 1 0) + literalError, fun a => ?_⟩
    have : ∑ x ∈ T, ((Pi.single (i : ℤ) 1 : ℤ → ℕ) x : ℝ) * (a x) ^ 2 / 2 = (a i) ^ 2 / 2 := by
      rw [Finset.sum_eq_single_of_mem _ hT]
      · simp
      · intro x _ hx
        simp [Pi.single_apply, hx]
    rw [this, hv, log_gaussian (a i)]
    constructor <;> linarith

/-! ## C70 -/

/-- C70. Sequential reduction of a model, with exact local integrals, runs through, and the value it
returns is the log-likelihood of the model with means moved into `[1e-8, 1 - 1e-8]`, up to the error
of the literal for `log √(2π)` (at most 2e-12 for each random effect). -/
theorem c70 {link : String} {μ : ℝ → ℝ} (hl : IsLink link μ) {M : ModFr q n p}
    {pars : Parameters} (hfam : Family.ofNames "binomial" link = Except.ok pars.family)
    (hM : WellFormed M pars.theta.length) (hc : Covered M) (hb : pars.beta.length = p)
    {ar : Arith} (har : ar = exactZ ∨ ar = i32 ∧ q ≤ 46341) :
    ∃ terms, findFactorizationTerms M = Except.ok terms ∧
      (∃ beliefs, List.Forall₂ (Represents pars) terms beliefs) ∧
      ∀ beliefs, List.Forall₂ (Represents pars) terms beliefs →
        ∃ c0 c v, ofBeliefs ar exactOps beliefs = Except.ok c0 ∧
          calibrateForward exactOps c0 = Except.ok c ∧
          logNormalizingConstant exactOps c = Except.ok v ∧
          0 < marginal (logLikClamped μ) M pars.theta pars.beta ∧
          v = Real.log (marginal (logLikClamped μ) M pars.theta pars.beta) + q * literalError := by
  obtain ⟨ext, terms, h1, rfl, hp, hcont, hcl⟩ := c40_own hc
  refine ⟨_, h1, exists_represents hl hfam hM hb, fun beliefs hbs => ?_⟩
  -- the items of the beliefs are those of the random effects
  let T : Finset ℤ := Finset.univ.image fun i : Fin q => (i : ℤ)
  have hTi : ∀ i : Fin q, (i : ℤ) ∈ T := fun i => Finset.mem_image_of_mem _ (Finset.mem_univ i)
  have hcases : ∀ b ∈ beliefs, (ExactWF b ∧ Tame T 0 b.2 ∧ ∀ x ∈ b.1, x ∈ T) ∨
      ∃ i : Fin q, b.1 = [(i : ℤ)] ∧ ExactWF b ∧ Tame T (Pi.single (i : ℤ) 1) b.2 := by
    intro b hbm
    obtain ⟨t, ht, hr⟩ := forall₂_mem_right hbs b hbm
    rcases List.mem_append.1 ht with ht | ht
    · obtain ⟨e, he, rfl⟩ := List.mem_map.1 ht
      obtain ⟨w1, w2⟩ := glmm_wf hl hfam hM hb (hcl e he).1 e.2 hr T
      refine Or.inl ⟨w1, w2, fun x hx => ?_⟩
      rw [hr.1] at hx
      obtain ⟨i, -, rfl⟩ := List.mem_map.1 hx
      exact hTi i
    · obtain ⟨i, -, rfl⟩ := List.mem_map.1 ht
      exact Or.inr ⟨i, normal_wf hr (hTi i)⟩
  have hitem : ∀ b ∈ beliefs, ∀ x ∈ b.1, x ∈ T := by
    intro b hbm x hx
    rcases hcases b hbm with ⟨-, -, h⟩ | ⟨i, h, -⟩
    · exact h x hx
    · rw [h, List.mem_singleton] at hx
      rw [hx]
      exact hTi i
  have hw : ∀ b ∈ beliefs, ExactWF b := by
    intro b hbm
    rcases hcases b hbm with ⟨h, -⟩ | ⟨i, -, h, -⟩ <;> exact h
  have hnormal : ∀ x ∈ T, ∃ b ∈ beliefs, b.1 = [x] ∧ Tame T (Pi.single x 1) b.2 := by
    intro x hx
    obtain ⟨i, -, rfl⟩ := Finset.mem_image.1 hx
    obtain ⟨b, hbm, hr⟩ := forall₂_mem_left hbs (.normal i 0 1)
      (List.mem_append_right _ (List.mem_map_of_mem (List.mem_finRange i)))
    obtain ⟨w1, -, w3⟩ := normal_wf hr (hTi i)
    exact ⟨b, hbm, w1, w3⟩
  have hflat : (beliefs.map Prod.fst).flatten.toFinset = T := by
    ext x
    rw [List.mem_toFinset, List.mem_flatten]
    constructor
    · rintro ⟨l, hlm, hx⟩
      obtain ⟨b, hbm, rfl⟩ := List.mem_map.1 hlm
      exact hitem b hbm x hx
    · intro hx
      obtain ⟨b, hbm, h, -⟩ := hnormal x hx
      exact ⟨b.1, List.mem_map_of_mem hbm, by rw [h]; simp⟩
  have hsuits : Suits ar (beliefs.map Prod.fst) := by
    unfold Suits
    rw [hflat]
    rcases har with h | ⟨h, hq⟩
    · exact Or.inl h
    · refine Or.inr ⟨h, le_trans Finset.card_image_le ?_⟩
      simpa using hq
  classical
  let N : Fn → ℤ → ℕ := fun b => if h : ∃ x ∈ b.1, Tame T (Pi.single x 1) b.2 then
    Pi.single h.choose 1 else 0
  obtain ⟨c0, c, v, e0, e1, e2⟩ := exact_runs beliefs hw hsuits hitem N (by
    intro b hbm
    by_cases h : ∃ x ∈ b.1, Tame T (Pi.single x 1) b.2
    · have hN : N b = Pi.single h.choose 1 := dif_pos h
      rw [hN]
      refine ⟨h.choose_spec.2, fun x hx => ?_⟩
      rw [Pi.single_apply] at hx
      split_ifs at hx with hxe
      · rw [hxe]
        exact h.choose_spec.1
      · omega
    · have hN : N b = 0 := dif_neg h
      rw [hN]
      refine ⟨?_, fun x hx => by simp at hx⟩
      rcases hcases b hbm with ⟨-, h', -⟩ | ⟨i, h1, -, h3⟩
      · exact h'
      · exact absurd ⟨_, by rw [h1]; simp, h3⟩ h) (by
    intro b hbm x hx
    obtain ⟨d, hd, h1, h2⟩ := hnormal x (hitem b hbm x hx)
    refine ⟨d, hd, ?_⟩
    have h : ∃ x ∈ d.1, Tame T (Pi.single x 1) d.2 := ⟨x, by rw [h1]; simp, h2⟩
    have hN : N d = Pi.single h.choose 1 := dif_pos h
    have hx' : h.choose = x := List.mem_singleton.1 (h1 ▸ h.choose_spec.1)
    rw [hN, hx']
    simp)
  refine ⟨c0, c, v, e0, e1, e2, ?_⟩
  -- the value
  have hval := c18_exact exactOps_laws exactOps_exact beliefs hw hsuits e0 e1 e2 0
  have hsum : ∀ a : ℤ → ℝ, (beliefs.map fun b => b.2 a).sum =
      logLikGiven (logLikClamped μ) M pars.theta pars.beta (fun i => a i) +
        ∑ r : Fin q, Real.log (ProbabilityTheory.gaussianPDFReal 0 1 (a r)) + q * literalError := by
    intro a
    obtain ⟨terms', vs, L, g1, g2, g3, g4⟩ := c41_coded hl hfam hM hc hb fun i => a i
    rw [h1] at g1
    have g1 := Except.ok.inj g1
    subst g1
    rw [forall₂_unique (List.forall₂_map_right_iff.2 (hbs.imp fun t b h => h.2 a)) g2, g4]
    rw [family_clamped hl hfam] at g3
    rw [← Except.ok.inj g3]
    rfl
  let F : (Fin q → ℝ) → ℝ := fun u => Real.exp (logLikGiven (logLikClamped μ) M pars.theta pars.beta u) *
    ∏ r, ProbabilityTheory.gaussianPDFReal 0 1 (u r)
  have hg : ∀ x, 0 < ProbabilityTheory.gaussianPDFReal 0 1 x := fun x =>
    ProbabilityTheory.gaussianPDFReal_pos 0 1 x one_ne_zero
  have hF0 : ∀ u, 0 < F u := fun u => mul_pos (Real.exp_pos _) (Finset.prod_pos fun r _ => hg _)
  have hFm : Measurable F := by
    refine (Real.measurable_exp.comp (logLikGiven_measurable
      (logLikClamped_measurable (link_measurable hl)) M _ _)).mul ?_
    exact Finset.measurable_prod _ fun r _ =>
      (ProbabilityTheory.measurable_gaussianPDFReal 0 1).comp (measurable_pi_apply r)
  have hexp : ∀ a : ℤ → ℝ, Real.exp ((beliefs.map fun b => b.2 a).sum) =
      Real.exp (q * literalError) * F fun i => a i := by
    intro a
    rw [hsum, Real.exp_add, Real.exp_add, Real.exp_sum]
    simp only [Real.exp_log (hg _)]
    ring
  have hint : ENNReal.ofReal (Real.exp v) = ENNReal.ofReal (Real.exp (q * literalError)) *
      ∫⁻ u, ENNReal.ofReal (F u) := by
    rw [hval, show (beliefs.map exactOps.items).flatten.toFinset = T from hflat]
    have h2 := lmarginal_image (μ := fun _ : ℤ => (volume : Measure ℝ))
      (e := fun i : Fin q => (i : ℤ)) (fun i j hij => by simpa [Fin.ext_iff] using hij) Finset.univ
      (f := fun u => ENNReal.ofReal (Real.exp (q * literalError) * F u))
      (by fun_prop) 0
    rw [lmarginal_univ] at h2
    rw [← lintegral_const_mul _ hFm.ennreal_ofReal]
    have h3 : (fun a : ℤ → ℝ => ENNReal.ofReal (Real.exp ((beliefs.map fun b => b.2 a).sum))) =
        fun a => ENNReal.ofReal (Real.exp (q * literalError) * F fun i => a i) := by
      funext a
      rw [hexp]
    rw [h3]
    refine h2.trans ?_
    rw [← volume_pi]
    refine lintegral_congr fun u => ?_
    rw [ENNReal.ofReal_mul (Real.exp_pos _).le]
  have hne : ∫⁻ u, ENNReal.ofReal (F u) ≠ ⊤ := by
    intro htop
    rw [htop, ENNReal.mul_top] at hint
    · exact ENNReal.ofReal_ne_top hint
    · rw [Ne, ENNReal.ofReal_eq_zero, not_le]
      exact Real.exp_pos _
  have hFi : Integrable F := (lintegral_ofReal_ne_top_iff_integrable hFm.aestronglyMeasurable
    (ae_of_all _ fun u => (hF0 u).le)).1 hne
  rw [← ofReal_integral_eq_lintegral_ofReal hFi (ae_of_all _ fun u => (hF0 u).le),
    ← ENNReal.ofReal_mul (Real.exp_pos _).le] at hint
  have hI : ∫ u, F u = marginal (logLikClamped μ) M pars.theta pars.beta := rfl
  rw [hI] at hint
  have h0 : 0 ≤ marginal (logLikClamped μ) M pars.theta pars.beta := by
    rw [← hI]
    exact integral_nonneg fun u => (hF0 u).le
  rw [ENNReal.ofReal_eq_ofReal_iff (Real.exp_pos _).le (mul_nonneg (Real.exp_pos _).le h0)] at hint
  have hpos : 0 < marginal (logLikClamped μ) M pars.theta pars.beta := by
    refine lt_of_le_of_ne h0 fun h => ?_
    rw [← h, mul_zero] at hint
    exact (Real.exp_pos _).ne' hint
  refine ⟨hpos, ?_⟩
  rw [← Real.log_exp v, hint, Real.log_mul (Real.exp_pos _).ne' hpos.ne', Real.log_exp, add_comm]

/-! ## C71: the effect of moving the means -/

theorem moved_sub (m : ℝ) : 1 - moved m = moved (1 - m) := by
  unfold moved
  rcases le_total m (1e-8) with h | h
  · rw [min_eq_left (h.trans (by norm_num)), max_eq_left h, min_eq_right (by linarith),
      max_eq_right (by norm_num)]
  · rcases le_total m (1 - 1e-8) with h' | h'
    · rw [min_eq_left h', max_eq_right h, min_eq_left (by linarith), max_eq_right (by linarith)]
    · rw [min_eq_right h', max_eq_right (by norm_num), min_eq_left (by linarith [(by norm_num :
        (1e-8 : ℝ) ≤ 1 - 1e-8)]), max_eq_left (by linarith)]
      ring

theorem moved_ge {m : ℝ} (h0 : 0 ≤ m) (h1 : m ≤ 1) : m * (1 - 1e-8) ≤ moved m := by
  unfold moved
  rcases le_total m (1 - 1e-8) with h | h
  · rw [min_eq_left h]
    refine le_trans ?_ (le_max_right _ _)
    exact mul_le_of_le_one_right h0 (by norm_num)
  · rw [min_eq_right h]
    refine le_trans ?_ (le_max_right _ _)
    exact mul_le_of_le_one_left (by norm_num) h1

theorem moved_le {m : ℝ} (h0 : 0 ≤ m) : moved m ≤ m + 1e-8 := by
  unfold moved
  refine max_le (by linarith) ?_
  have := min_le_left m (1 - 1e-8)
  linarith [(by norm_num : (0 : ℝ) ≤ 1e-8)]

theorem log_moved_ge {m : ℝ} (h0 : 0 < m) (h1 : m ≤ 1) :
    Real.log m + Real.log (1 - 1e-8) ≤ Real.log (moved m) := by
  rw [← Real.log_mul h0.ne' (by norm_num)]
  exact Real.log_le_log (mul_pos h0 (by norm_num)) (moved_ge h0.le h1)

theorem logLikClamped_ge {link : String} {μ : ℝ → ℝ} (hl : IsLink link μ) {y w : ℝ} (hy0 : 0 ≤ y)
    (hy1 : y ≤ 1) (hw : 0 ≤ w) (x : ℝ) :
    logLik μ y w x + w * Real.log (1 - 1e-8) ≤ logLikClamped μ y w x := by
  obtain ⟨μ1, μ2, μ3, μ4, h⟩ := linkOk hl
  have a1 := log_moved_ge (h.pos x) (h.lt_one x).le
  have a2 := log_moved_ge (m := 1 - μ x) (by linarith [h.lt_one x]) (by linarith [h.pos x])
  rw [← moved_sub] at a2
  rw [logLikClamped, logLik, logLik, ← mul_add]
  refine mul_le_mul_of_nonneg_left ?_ hw
  have b1 := mul_le_mul_of_nonneg_left a1 hy0
  have b2 := mul_le_mul_of_nonneg_left a2 (by linarith : 0 ≤ 1 - y)
  nlinarith

theorem logLik_nonpos {link : String} {μ : ℝ → ℝ} (hl : IsLink link μ) {y w : ℝ} (hy0 : 0 ≤ y)
    (hy1 : y ≤ 1) (hw : 0 ≤ w) (x : ℝ) : logLik μ y w x ≤ 0 := by
  obtain ⟨μ1, μ2, μ3, μ4, h⟩ := linkOk hl
  rw [logLik]
  refine mul_nonpos_of_nonneg_of_nonpos hw (add_nonpos ?_ ?_)
  · exact mul_nonpos_of_nonneg_of_nonpos hy0 (Real.log_nonpos (h.pos x).le (h.lt_one x).le)
  · exact mul_nonpos_of_nonneg_of_nonpos (by linarith)
      (Real.log_nonpos (by linarith [h.lt_one x]) (by linarith [h.pos x]))

/-- The density of the random effects. -/
noncomputable def density (u : Fin q → ℝ) : ℝ := ∏ r, ProbabilityTheory.gaussianPDFReal 0 1 (u r)

theorem density_pos (u : Fin q → ℝ) : 0 < density u :=
  Finset.prod_pos fun r _ => ProbabilityTheory.gaussianPDFReal_pos 0 1 _ one_ne_zero

theorem density_integrable : Integrable (density (q := q)) := by
  unfold density
  exact Integrable.fintype_prod (f := fun _ => ProbabilityTheory.gaussianPDFReal 0 1)
    fun _ => ProbabilityTheory.integrable_gaussianPDFReal 0 1

theorem density_integral : ∫ u : Fin q → ℝ, density u = 1 := by
  unfold density
  rw [integral_fintype_prod_volume_eq_prod fun _ : Fin q => ProbabilityTheory.gaussianPDFReal 0 1]
  simp [ProbabilityTheory.integral_gaussianPDFReal_eq_one 0 (one_ne_zero (α := NNReal))]

theorem marginal_integrable {L : ℝ → ℝ → ℝ → ℝ} (hL : ∀ y w, Measurable (L y w)) {M : ModFr q n p}
    {theta beta : List ℝ} {K : ℝ} (hK : ∀ u, logLikGiven L M theta beta u ≤ K) :
    Integrable fun u => Real.exp (logLikGiven L M theta beta u) * density u := by
  refine Integrable.mono' (density_integrable.const_mul (Real.exp K)) ?_ (ae_of_all _ fun u => ?_)
  · refine Measurable.aestronglyMeasurable ?_
    refine (Real.measurable_exp.comp (logLikGiven_measurable hL M _ _)).mul ?_
    exact Finset.measurable_prod _ fun r _ =>
      (ProbabilityTheory.measurable_gaussianPDFReal 0 1).comp (measurable_pi_apply r)
  · rw [Real.norm_eq_abs, abs_of_pos (mul_pos (Real.exp_pos _) (density_pos u))]
    exact mul_le_mul_of_nonneg_right (Real.exp_le_exp.2 (hK u)) (density_pos u).le

theorem marginal_pos {L : ℝ → ℝ → ℝ → ℝ} (hL : ∀ y w, Measurable (L y w)) {M : ModFr q n p}
    {theta beta : List ℝ} {K : ℝ} (hK : ∀ u, logLikGiven L M theta beta u ≤ K) :
    0 < marginal L M theta beta := by
  have h := marginal_integrable hL hK
  have h0 : ∀ u, 0 < Real.exp (logLikGiven L M theta beta u) * density u := fun u =>
    mul_pos (Real.exp_pos _) (density_pos u)
  refine (integral_pos_iff_support_of_nonneg (fun u => (h0 u).le) h).2 ?_
  rw [show Function.support _ = Set.univ from Set.eq_univ_of_forall fun u => (h0 u).ne']
  exact pos_iff_ne_zero.2 (NeZero.ne _)

theorem prod_le_add {ι : Type} (s : Finset ι) (a b : ι → ℝ) {ε : ℝ} (hε : 0 ≤ ε)
    (h : ∀ i ∈ s, 0 ≤ a i ∧ a i ≤ 1 ∧ 0 ≤ b i ∧ b i ≤ 1 ∧ a i ≤ b i + ε) :
    ∏ i ∈ s, a i ≤ ∏ i ∈ s, b i + s.card * ε ∧ ∏ i ∈ s, a i ≤ 1 := by
  classical
  induction s using Finset.induction_on with
  | empty => simp
  | insert i s hi ih =>
    obtain ⟨h1, h2⟩ := ih fun j hj => h j (Finset.mem_insert_of_mem hj)
    obtain ⟨a0, a1, b0, b1, hab⟩ := h i (Finset.mem_insert_self i s)
    rw [Finset.prod_insert hi, Finset.prod_insert hi, Finset.card_insert_of_notMem hi]
    have p0 : 0 ≤ ∏ j ∈ s, a j := Finset.prod_nonneg fun j hj => (h j (Finset.mem_insert_of_mem hj)).1
    push_cast
    constructor
    · have e1 : a i * ∏ j ∈ s, a j ≤ b i * ∏ j ∈ s, a j + ε := by
        nlinarith [mul_le_mul_of_nonneg_right hab p0]
      have e2 : b i * ∏ j ∈ s, a j ≤ b i * ∏ j ∈ s, b j + s.card * ε := by
        have := mul_le_mul_of_nonneg_left h1 b0
        nlinarith [mul_le_mul_of_nonneg_right b1 (by positivity : 0 ≤ (s.card : ℝ) * ε)]
      linarith
    · exact mul_le_one₀ a1 p0 h2

/-- C71. For proportions and non-negative weights the value that exact sequential reduction returns
is not below the log-likelihood by more than the literal error and `1.01e-8` for each trial. -/
theorem c71_lower {link : String} {μ : ℝ → ℝ} (hl : IsLink link μ) {M : ModFr q n p}
    (theta beta : List ℝ) (hy : ∀ j, 0 ≤ M.resp j ∧ M.resp j ≤ 1) (hw : ∀ j, 0 ≤ weight M j) :
    0 < marginal (logLik μ) M theta beta ∧
    Real.log (marginal (logLik μ) M theta beta) - 1.01e-8 * ∑ j, weight M j ≤
      Real.log (marginal (logLikClamped μ) M theta beta) := by
  have hμ := link_measurable hl
  have hK : ∀ u, logLikGiven (logLik μ) M theta beta u ≤ 0 := fun u =>
    Finset.sum_nonpos fun j _ => logLik_nonpos hl (hy j).1 (hy j).2 (hw j) _
  have hpos := marginal_pos (logLik_measurable hμ) hK
  refine ⟨hpos, ?_⟩
  choose K hK' using fun j => logLikClamped_bounded μ (M.resp j) (weight M j)
  have hKc : ∀ u, logLikGiven (logLikClamped μ) M theta beta u ≤ ∑ j, K j := fun u =>
    Finset.sum_le_sum fun j _ => (le_abs_self _).trans (hK' j _)
  have h1 : Real.exp ((∑ j, weight M j) * Real.log (1 - 1e-8)) * marginal (logLik μ) M theta beta ≤
      marginal (logLikClamped μ) M theta beta := by
    unfold marginal
    rw [← integral_const_mul]
    refine integral_mono ((marginal_integrable (logLik_measurable hμ) hK).const_mul _)
      (marginal_integrable (logLikClamped_measurable hμ) hKc) fun u => ?_
    show _ * (_ * density u) ≤ _ * density u
    rw [← mul_assoc, ← Real.exp_add]
    refine mul_le_mul_of_nonneg_right (Real.exp_le_exp.2 ?_) (density_pos u).le
    unfold logLikGiven
    rw [Finset.sum_mul, ← Finset.sum_add_distrib]
    refine Finset.sum_le_sum fun j _ => ?_
    have := logLikClamped_ge hl (hy j).1 (hy j).2 (hw j) (Spec.eta M theta beta u j)
    linarith
  have h2 := Real.log_le_log (mul_pos (Real.exp_pos _) hpos) h1
  rw [Real.log_mul (Real.exp_pos _).ne' hpos.ne', Real.log_exp] at h2
  have h3 : -(1.01e-8 : ℝ) ≤ Real.log (1 - 1e-8) := by
    have := Real.one_sub_inv_le_log_of_pos (by norm_num : (0 : ℝ) < 1 - 1e-8)
    refine le_trans ?_ this
    norm_num
  have h4 : 0 ≤ ∑ j, weight M j := Finset.sum_nonneg fun j _ => hw j
  nlinarith

/-- C71. For 0-1 responses without weights the value that exact sequential reduction returns belongs
to a likelihood that is not above the likelihood of the model by more than `1e-8` for each
observation. -/
theorem c71_upper {link : String} {μ : ℝ → ℝ} (hl : IsLink link μ) {M : ModFr q n p}
    (theta beta : List ℝ) (hy : ∀ j, M.resp j = 0 ∨ M.resp j = 1) (hw : M.weights = none) :
    marginal (logLikClamped μ) M theta beta ≤ marginal (logLik μ) M theta beta + n * 1e-8 := by
  have hμ := link_measurable hl
  obtain ⟨μ1, μ2, μ3, μ4, hok⟩ := linkOk hl
  have hw1 : ∀ j, weight M j = 1 := fun j => by rw [weight, hw]
  have hK : ∀ u, logLikGiven (logLik μ) M theta beta u ≤ 0 := fun u =>
    Finset.sum_nonpos fun j _ => logLik_nonpos hl (by rcases hy j with h | h <;> rw [h] <;> norm_num)
      (by rcases hy j with h | h <;> rw [h] <;> norm_num) (by rw [hw1]; norm_num) _
  choose K hK' using fun j => logLikClamped_bounded μ (M.resp j) (weight M j)
  have hKc : ∀ u, logLikGiven (logLikClamped μ) M theta beta u ≤ ∑ j, K j := fun u =>
    Finset.sum_le_sum fun j _ => (le_abs_self _).trans (hK' j _)
  have hpt : ∀ u, Real.exp (logLikGiven (logLikClamped μ) M theta beta u) ≤
      Real.exp (logLikGiven (logLik μ) M theta beta u) + n * 1e-8 := by
    intro u
    unfold logLikGiven
    rw [Real.exp_sum, Real.exp_sum]
    have h := (prod_le_add (ε := 1e-8) Finset.univ
      (fun j => Real.exp (logLikClamped μ (M.resp j) (weight M j) (Spec.eta M theta beta u j)))
      (fun j => Real.exp (logLik μ (M.resp j) (weight M j) (Spec.eta M theta beta u j)))
      (by norm_num) fun j _ => ?_).1
    · simpa using h
    · have m0 := hok.pos (Spec.eta M theta beta u j)
      have m1 := hok.lt_one (Spec.eta M theta beta u j)
      have c0 := moved_mem (μ (Spec.eta M theta beta u j))
      refine ⟨(Real.exp_pos _).le, ?_, (Real.exp_pos _).le, ?_, ?_⟩
      · rw [Real.exp_le_one_iff]
        rcases hy j with h | h
        · rw [logLikClamped, logLik, h, hw1]
          simp only [zero_mul, zero_add, sub_zero, one_mul]
          exact Real.log_nonpos (by linarith [c0.2, (by norm_num : (0 : ℝ) ≤ 1e-8)])
            (by linarith [c0.1, (by norm_num : (0 : ℝ) ≤ 1e-8)])
        · rw [logLikClamped, logLik, h, hw1]
          simp only [sub_self, zero_mul, add_zero, one_mul]
          exact Real.log_nonpos (by linarith [c0.1, (by norm_num : (0 : ℝ) ≤ 1e-8)])
            (by linarith [c0.2, (by norm_num : (0 : ℝ) ≤ 1e-8)])
      · rw [Real.exp_le_one_iff]
        exact logLik_nonpos hl (by rcases hy j with h | h <;> rw [h] <;> norm_num)
          (by rcases hy j with h | h <;> rw [h] <;> norm_num) (by rw [hw1]; norm_num) _
      · have p8 : (0 : ℝ) < 1e-8 := by norm_num
        rcases hy j with h | h
        · rw [logLikClamped, logLik, logLik, h, hw1]
          simp only [zero_mul, zero_add, sub_zero, one_mul]
          rw [Real.exp_log (by linarith [c0.2]), Real.exp_log (by linarith), moved_sub]
          exact moved_le (by linarith)
        · rw [logLikClamped, logLik, logLik, h, hw1]
          simp only [sub_self, zero_mul, add_zero, one_mul]
          rw [Real.exp_log (by linarith [c0.1]), Real.exp_log m0]
          exact moved_le m0.le
  have h1 : marginal (logLikClamped μ) M theta beta ≤ ∫ u : Fin q → ℝ,
      (Real.exp (logLikGiven (logLik μ) M theta beta u) * density u + n * 1e-8 * density u) := by
    unfold marginal
    refine integral_mono (marginal_integrable (logLikClamped_measurable hμ) hKc)
      ((marginal_integrable (logLik_measurable hμ) hK).add (density_integrable.const_mul _))
      fun u => ?_
    show _ * density u ≤ _
    have := mul_le_mul_of_nonneg_right (hpt u) (density_pos u).le
    linarith
  refine h1.trans (le_of_eq ?_)
  rw [integral_add (marginal_integrable (logLik_measurable hμ) hK) (density_integrable.const_mul _),
    integral_const_mul, density_integral, mul_one]
  rfl

/-! ## A case meeting the hypotheses -/

/-- Sequential reduction of the crossed model of C41, with 32-bit integers. -/
example : ∃ terms, findFactorizationTerms crossed = Except.ok terms ∧
    (∃ beliefs, List.Forall₂ (Represents crossedPars) terms beliefs) ∧
    ∀ beliefs, List.Forall₂ (Represents crossedPars) terms beliefs →
      ∃ c0 c v, ofBeliefs i32 exactOps beliefs = Except.ok c0 ∧
        calibrateForward exactOps c0 = Except.ok c ∧
        logNormalizingConstant exactOps c = Except.ok v ∧
        0 < marginal (logLikClamped expit) crossed [1, 2] [0.5] ∧
        v = Real.log (marginal (logLikClamped expit) crossed [1, 2] [0.5]) +
          (2 : ℕ) * literalError :=
  c70 .logit (pars := crossedPars) rfl crossed_wf crossed_covered rfl (Or.inr ⟨rfl, by norm_num⟩)

/-- Its responses are 0 and 1, without weights. -/
example : (∀ j, crossed.resp j = 0 ∨ crossed.resp j = 1) ∧ crossed.weights = none :=
  ⟨fun j => by
    unfold crossed
    dsimp only
    split_ifs <;> simp, rfl⟩

end Verif.Split
