import Verif.Proofs.SRRun
import Verif.Proofs.SRFactors
import Verif.Props.Quadrature
import Mathlib.MeasureTheory.Integral.Pi

/-!
# C80: for a two-level model sequential reduction is adaptive Gauss-Hermite quadrature
-/
namespace Verif.SR

open Verif.Gauss Verif.Belief Verif.ClusterGraph Verif.Store Verif.Pars Verif.Split
open Verif.Split.Spec Verif.GLMM Verif.Family ProbabilityTheory

variable {q n p : ℕ}

/-! ## Specification -/

/-- A two-level model: observation `j` depends on the single random effect `g j`. -/
def TwoLevel (M : ModFr q n p) (g : Fin n → Fin q) : Prop := ∀ j, Active M j = {g j}

/-- Log-likelihood of the observations of group `r` when the random effect of the group is `t`. `L y w`
is the log-likelihood of one observation as a function of the linear predictor. -/
noncomputable def groupLogLik (L : ℝ → ℝ → ℝ → ℝ) (M : ModFr q n p) (theta beta : List ℝ)
    (g : Fin n → Fin q) (r : Fin q) (t : ℝ) : ℝ :=
  ∑ j with g j = r, L (M.resp j) (weight M j) (Spec.eta M theta beta (Pi.single r t) j)

/-- Integrand of group `r`: likelihood of its observations times the density of its random effect. -/
noncomputable def groupIntegrand (L : ℝ → ℝ → ℝ → ℝ) (M : ModFr q n p) (theta beta : List ℝ)
    (g : Fin n → Fin q) (r : Fin q) (t : ℝ) : ℝ :=
  Real.exp (groupLogLik L M theta beta g r t) * gaussianPDFReal 0 1 t

/-- Adaptive quadrature of the integrand of group `r`. -/
noncomputable def groupAgq (rule : QuadratureRule) (mean : Fin q → ℝ)
    (Q : Matrix (Fin q) (Fin q) ℝ) (F : Fin q → ℝ → ℝ) (r : Fin q) : ℝ :=
  Verif.Spec.agq (rule.nodes.zip rule.weights) (mean r) (Real.sqrt (Q r r)⁻¹) (F r)

/-! ## The beliefs on one item -/

variable {lib : Lib} {pars : Parameters} {μ : ℝ → ℝ} {M : ModFr q n p}

theorem group_made {ts : List (Term q p)} {bs : List (Mixed Factor NB)}
    (h : List.Forall₂ (Made lib pars μ) ts bs) (x : ℤ) (t : ℝ) :
    group lib pars bs x t = (ts.map fun s => if termItems s = [x] then
      termValue μ pars s (fun _ => t) else 0).sum := by
  induction h with
  | nil => rfl
  | @cons s b ts bs h1 h2 ih =>
    rw [group] at ih ⊢
    rw [List.map_cons, List.sum_cons, ← ih, List.filter_cons]
    by_cases hx : b.items = [x]
    · rw [if_pos (by simpa using hx), if_pos (by rw [← h1.items]; exact hx), List.map_cons,
        List.sum_cons, ← h1.value]
    · rw [if_neg (by simpa using hx), if_neg (by rw [← h1.items]; exact hx), zero_add]

theorem clique_single {g : Fin n → Fin q} (h : TwoLevel M g) {C : List (Fin q)} (hn : C.Nodup)
    {j : Fin n} (hj : ∀ r, r ∈ C ↔ r ∈ Active M j) : C = [g j] := by
  refine List.perm_singleton.mp ((List.perm_ext_iff_of_nodup hn (by simp)).mpr fun r => ?_)
  rw [hj, h j]
  simp

theorem group_value {g : Fin n → Fin q} (h2 : TwoLevel M g) (hM : WellFormed M pars.theta.length)
    {ext : List (List (Fin q) × List (Fin n))} (hp : Partition ext) (hc : Contained M ext)
    (hcl : ∀ e ∈ ext, e.1.Nodup ∧ ∃ j, ∀ r, r ∈ e.1 ↔ r ∈ Active M j)
    {bs : List (Mixed Factor NB)} (h : List.Forall₂ (Made lib pars μ)
      ((ext.map fun e => Term.glmm e.1 e.2.length (findLocalTerm e.1 e.2 M)) ++
          (List.finRange q).map (fun i => Term.normal i 0 1)) bs) (r : Fin q) (t : ℝ) :
    group lib pars bs ((r : ℕ) : ℤ) t = groupLogLik (logLikClamped μ) M pars.theta pars.beta g r t +
      Real.log (gaussianPDFReal 0 1 t) + literalError := by
  rw [group_made h, List.map_append, List.sum_append, List.map_map, List.map_map, add_assoc]
  congr 1
  · rw [groupLogLik, Finset.sum_filter, ← sum_partition hp]
    congr 1
    refine List.map_congr_left fun e he => ?_
    obtain ⟨hn, j, hj⟩ := hcl e he
    have he1 := clique_single h2 hn hj
    have hobs : ∀ k ∈ e.2, g k = g j := by
      intro k hk
      have := hc e he k hk (g k) (by rw [h2 k]; rfl)
      rw [he1, List.mem_singleton] at this
      exact this
    have hit : ∀ m D, termItems (Term.glmm e.1 m D : Term q p) = [((g j : ℕ) : ℤ)] := by
      intro m D
      rw [termItems, he1]
      rfl
    show (if termItems (Term.glmm e.1 _ _ : Term q p) = [((r : ℕ) : ℤ)] then _ else _) = _
    rw [hit]
    by_cases hr : g j = r
    · rw [if_pos (by rw [hr]), ← sum_fin_list]
      rw [termValue]
      refine Finset.sum_congr rfl fun i _ => ?_
      rw [if_pos ((hobs _ (List.get_mem _ _)).trans hr)]
      have hw : (findLocalTerm e.1 e.2 M).weights i = weight M (e.2.get i) := by
        unfold findLocalTerm weight
        dsimp only
        rcases M.weights with _ | w <;> rfl
      rw [hw, ← local_eta hM hn i (hc e he _ (List.get_mem _ _))]
      have hu : (fun _ : Fin e.1.length => t) =
          fun k => (Pi.single r t : Fin q → ℝ) (e.1.get k) := by
        funext k
        have hk : e.1.get k ∈ [g j] := he1 ▸ List.get_mem e.1 k
        rw [List.mem_singleton.mp hk, hr, Pi.single_eq_same]
      rw [← hu]
      rfl
    · rw [if_neg]
      · symm
        refine List.sum_eq_zero fun v hv => ?_
        obtain ⟨k, hk, rfl⟩ := List.mem_map.mp hv
        rw [if_neg]
        rw [hobs k hk]
        exact hr
      · intro h'
        have h'' : ((g j : ℕ) : ℤ) = ((r : ℕ) : ℤ) := by simpa using h'
        exact hr (Fin.ext (by exact_mod_cast h''))
  · rw [← List.ofFn_eq_map, List.sum_ofFn, Finset.sum_eq_single r]
    · show (if ([((r : ℕ) : ℤ)] : List ℤ) = [((r : ℕ) : ℤ)] then _ else _) = _
      rw [if_pos rfl]
      rfl
    · intro i _ hi
      show (if ([((i : ℕ) : ℤ)] : List ℤ) = [((r : ℕ) : ℤ)] then _ else _) = _
      rw [if_neg]
      intro h'
      have h'' : ((i : ℕ) : ℤ) = ((r : ℕ) : ℤ) := by simpa using h'
      exact hi (Fin.ext (by exact_mod_cast h''))
    · simp

theorem pdf_pos (t : ℝ) : 0 < gaussianPDFReal 0 1 t := gaussianPDFReal_pos 0 1 t one_ne_zero

theorem logAgq_group {rule : QuadratureRule} (hr : RuleOk rule) {mean : Fin q → ℝ}
    {Q : Matrix (Fin q) (Fin q) ℝ} (hp : ∀ r, 0 < Q r r) (F : Fin q → ℝ → ℝ) (r : Fin q) (s : ℝ) :
    logAgq rule (mean r) (Real.sqrt (Q r r)⁻¹)
        (fun t => F r t + Real.log (gaussianPDFReal 0 1 t) + s) =
      Real.log (groupAgq rule mean Q (fun r t => Real.exp (F r t) * gaussianPDFReal 0 1 t) r) +
        s := by
  rw [logAgq_shift hr (Real.sqrt_pos.mpr (inv_pos.mpr (hp r)))]
  congr 1
  rw [logAgq, groupAgq]
  congr 2
  funext t
  rw [Real.exp_add, Real.exp_log (pdf_pos t)]

/-! ## C80 -/

/-- The run of `c80`, with the states at its end. -/
theorem two_level_run {link : String} (hl : IsLink link μ)
    (hfam : Family.ofNames "binomial" link = Except.ok pars.family)
    (hM : WellFormed M pars.theta.length) {g : Fin n → Fin q} (h2 : TwoLevel M g)
    (hb : pars.beta.length = p) (hq : 0 < q) (hrd : Reads lib.rd M)
    (har : lib.ar = exactZ ∨ lib.ar = i32 ∧ q ≤ 46341) (hr : RuleOk pars.quadratureRule)
    {mean : Fin q → ℝ} {Q : Matrix (Fin q) (Fin q) ℝ} (hQ : Q.PosDef)
    (hd : ∀ i j, i ≠ j → Q i j = 0) (hlog : ∀ i, Real.log (Q i i) ≠ 2 * logSqrtTwoPi) :
    ∃ c, clusterGraph lib pars M = Except.ok c ∧
      (∀ b ∈ c.clusters, b.items.length = 1) ∧
      ((computeLogNormalizingConstant lib pars c mean Q =
          Res.raise "improper cluster belief after passing message" ∧
        ¬ ((∀ r t, Real.log (groupIntegrand (logLikClamped μ) M pars.theta pars.beta g r t) +
            literalError < 0) ∧
          ∀ r, Real.log (groupAgq pars.quadratureRule mean Q
            (groupIntegrand (logLikClamped μ) M pars.theta pars.beta g) r) + literalError ≤ 0)) ∨
        computeLogNormalizingConstant lib pars c mean Q = Except.ok
          (∑ r, Real.log (groupAgq pars.quadratureRule mean Q
            (groupIntegrand (logLikClamped μ) M pars.theta pars.beta g) r) + q * literalError)) ∧
      ∀ c1 c2, setNormalApprox (Factor.ops lib pars) (store lib pars) mean Q c = Except.ok c1 →
        calibrateForward (ops lib pars) c1 = Except.ok c2 →
        (∀ b ∈ c1.clusters, ∃ r : Fin q, b.items = [((r : ℕ) : ℤ)] ∧ ∀ a, val lib pars b a =
          Real.log (groupIntegrand (logLikClamped μ) M pars.theta pars.beta g r (a r)) +
            literalError) ∧
        (∀ b ∈ c2.clusters, WFs lib pars b) ∧ ∀ e ∈ c2.edges, NoItem lib pars e.belief := by
  have hc : Covered M := fun j => ⟨g j, by rw [h2 j]; rfl⟩
  obtain ⟨ext, beliefs, e1, e2, hmade, hp, hcont, hcl⟩ :=
    beliefs_made (lib := lib) hl hfam hM hc hb hrd
  have hlen : ∀ b ∈ beliefs, ∃ i : Fin q, b.items = [((i : ℕ) : ℤ)] := by
    intro b hbm
    obtain ⟨t, ht, hm⟩ := forall₂_mem_right hmade b hbm
    rw [hm.items]
    rcases List.mem_append.1 ht with ht | ht
    · obtain ⟨e, he, rfl⟩ := List.mem_map.1 ht
      obtain ⟨hn, j, hj⟩ := hcl e he
      exact ⟨g j, by rw [termItems, clique_single h2 hn hj]; rfl⟩
    · obtain ⟨i, -, rfl⟩ := List.mem_map.1 ht
      exact ⟨i, rfl⟩
  have hnormal : ∀ i : Fin q, ∃ b ∈ beliefs, b.items = [((i : ℕ) : ℤ)] := by
    intro i
    obtain ⟨b, hbm, hm⟩ := forall₂_mem_left hmade (.normal i 0 1)
      (List.mem_append_right _ (List.mem_map_of_mem (List.mem_finRange i)))
    exact ⟨b, hbm, hm.items⟩
  have hcov : ∀ x : ℤ, (∃ b ∈ beliefs, x ∈ b.items) ↔ 0 ≤ x ∧ x < q := by
    intro x
    constructor
    · rintro ⟨b, hbm, hx⟩
      obtain ⟨i, hi⟩ := hlen b hbm
      rw [hi, List.mem_singleton] at hx
      omega
    · rintro ⟨h0, h1⟩
      obtain ⟨b, hbm, hi⟩ := hnormal ⟨x.toNat, by omega⟩
      refine ⟨b, hbm, ?_⟩
      rw [hi]
      simp [h0]
  have hsuits : Suits lib.ar (beliefs.map Mixed.items) := by
    unfold Suits
    rcases har with h | ⟨h, hq'⟩
    · exact Or.inl h
    · refine Or.inr ⟨h, le_trans (Finset.card_le_card (t := Finset.univ.image
        fun i : Fin q => ((i : ℕ) : ℤ)) fun x hx => ?_) (Finset.card_image_le.trans ?_)⟩
      · rw [List.mem_toFinset, List.mem_flatten] at hx
        obtain ⟨l, hl', hx⟩ := hx
        obtain ⟨b, hbm, rfl⟩ := List.mem_map.1 hl'
        obtain ⟨i, hi⟩ := hlen b hbm
        rw [hi, List.mem_singleton] at hx
        rw [hx]
        exact Finset.mem_image_of_mem _ (Finset.mem_univ i)
      · simpa using hq'
  obtain ⟨c, ec, hone, hres, hend⟩ := single_run (mean := mean) lib hr
    (fun b hbm => by
      obtain ⟨t, -, hm⟩ := forall₂_mem_right hmade b hbm
      exact hm.wf)
    (fun b hbm => by
      obtain ⟨i, hi⟩ := hlen b hbm
      rw [hi]
      rfl) hq hcov hsuits hQ hd hlog
  refine ⟨c, ?_, hone, ?_⟩
  · rw [clusterGraph, e1]
    simp only [res_ok_bind]
    rw [e2]
    exact ec
  · have hg : ∀ r : Fin q, group lib pars beliefs ((r : ℕ) : ℤ) = fun t =>
        groupLogLik (logLikClamped μ) M pars.theta pars.beta g r t +
          Real.log (gaussianPDFReal 0 1 t) + literalError := fun r => funext fun t =>
      group_value h2 hM hp hcont hcl hmade r t
    have hagq : ∀ r : Fin q, logAgq pars.quadratureRule (mean r) (Real.sqrt (Q r r)⁻¹)
        (group lib pars beliefs ((r : ℕ) : ℤ)) = Real.log (groupAgq pars.quadratureRule mean Q
            (groupIntegrand (logLikClamped μ) M pars.theta pars.beta g) r) + literalError := by
      intro r
      rw [hg r]
      exact logAgq_group hr (fun i => hQ.diag_pos)
        (groupLogLik (logLikClamped μ) M pars.theta pars.beta g) r literalError
    have hneg : ∀ r : Fin q, ∀ t, group lib pars beliefs ((r : ℕ) : ℤ) t =
        Real.log (groupIntegrand (logLikClamped μ) M pars.theta pars.beta g r t) +
          literalError := by
      intro r t
      rw [hg r, groupIntegrand, Real.log_mul (Real.exp_ne_zero _) (pdf_pos t).ne', Real.log_exp]
    refine ⟨?_, fun c1 c2 h1 h2 => ?_⟩
    swap
    · obtain ⟨w1, w2, w3⟩ := hend c1 c2 h1 h2
      refine ⟨fun b hbm => ?_, w2, w3⟩
      obtain ⟨r, hi, hv⟩ := w1 b hbm
      exact ⟨r, hi, fun a => (hv a).trans (hneg r _)⟩
    rcases hres with ⟨h, hn⟩ | h
    · left
      refine ⟨h, fun hs => hn ⟨fun i t => ?_, fun i => ?_⟩⟩
      · rw [hneg]
        exact hs.1 i t
      · rw [hagq]
        exact hs.2 i
    · right
      rw [h]
      congr 1
      rw [Finset.sum_congr rfl fun r _ => hagq r, Finset.sum_add_distrib]
      simp

/-- C80. For a two-level model and a normal approximation with independent random effects, the
cluster graph of the model can be made; all its clusters have one item. On it `computeLogNormalizingConstant` returns the sum over
the groups of the logarithms of the adaptive quadrature approximations, with the quadrature rule of
the parameters, centred at the mean of the normal approximation and scaled by its standard
deviation, whatever the level of the sparse grids (up to the error of the literal for `log √(2π)`,
at most 2e-12 for each group), or raises the exception for improper beliefs; the latter is
impossible if all log integrands are negative and all quadrature approximations are at most 1
(both including that error). -/
theorem c80 {link : String} (hl : IsLink link μ)
    (hfam : Family.ofNames "binomial" link = Except.ok pars.family)
    (hM : WellFormed M pars.theta.length) {g : Fin n → Fin q} (h2 : TwoLevel M g)
    (hb : pars.beta.length = p) (hq : 0 < q) (hrd : Reads lib.rd M)
    (har : lib.ar = exactZ ∨ lib.ar = i32 ∧ q ≤ 46341) (hr : RuleOk pars.quadratureRule)
    {mean : Fin q → ℝ} {Q : Matrix (Fin q) (Fin q) ℝ} (hQ : Q.PosDef)
    (hd : ∀ i j, i ≠ j → Q i j = 0) (hlog : ∀ i, Real.log (Q i i) ≠ 2 * logSqrtTwoPi) :
    ∃ c, clusterGraph lib pars M = Except.ok c ∧
      (∀ b ∈ c.clusters, b.items.length = 1) ∧
      ((computeLogNormalizingConstant lib pars c mean Q =
          Res.raise "improper cluster belief after passing message" ∧
        ¬ ((∀ r t, Real.log (groupIntegrand (logLikClamped μ) M pars.theta pars.beta g r t) +
            literalError < 0) ∧
          ∀ r, Real.log (groupAgq pars.quadratureRule mean Q
            (groupIntegrand (logLikClamped μ) M pars.theta pars.beta g) r) + literalError ≤ 0)) ∨
        computeLogNormalizingConstant lib pars c mean Q = Except.ok
          (∑ r, Real.log (groupAgq pars.quadratureRule mean Q
            (groupIntegrand (logLikClamped μ) M pars.theta pars.beta g) r) + q * literalError)) := by
  obtain ⟨c, h1, h2, h3, -⟩ := two_level_run hl hfam hM h2 hb hq hrd har hr hQ hd hlog
  exact ⟨c, h1, h2, h3⟩

/-! ## The conditions -/

theorem logLikClamped_le (μ : ℝ → ℝ) {y w : ℝ} (hy0 : 0 ≤ y) (hy1 : y ≤ 1) (hw : 0 ≤ w) (x : ℝ) :
    logLikClamped μ y w x ≤ w * Real.log (1 - 1e-8) := by
  obtain ⟨h1, h2⟩ := moved_mem (μ x)
  rw [logLikClamped, logLik]
  refine mul_le_mul_of_nonneg_left ?_ hw
  have e1 : Real.log (moved (μ x)) ≤ Real.log (1 - 1e-8) :=
    Real.log_le_log (lt_of_lt_of_le (by norm_num) h1) h2
  have e2 : Real.log (1 - moved (μ x)) ≤ Real.log (1 - 1e-8) :=
    Real.log_le_log (by linarith [(by norm_num : (0 : ℝ) < 1e-8)]) (by linarith)
  nlinarith

theorem pdf_le (t : ℝ) : gaussianPDFReal 0 1 t ≤ 1 / 2 := by
  rw [gaussianPDFReal]
  have h1 : Real.exp (-(t - 0) ^ 2 / (2 * ((1 : NNReal) : ℝ))) ≤ 1 := by
    rw [Real.exp_le_one_iff]
    have := sq_nonneg (t - 0)
    simp only [NNReal.coe_one]
    linarith
  have h2 : 2 ≤ Real.sqrt (2 * Real.pi * ((1 : NNReal) : ℝ)) := by
    rw [Real.le_sqrt' (by norm_num)]
    simp only [NNReal.coe_one]
    have := Real.pi_gt_three
    linarith
  have h3 : (Real.sqrt (2 * Real.pi * ((1 : NNReal) : ℝ)))⁻¹ ≤ 1 / 2 := by
    rw [one_div]
    exact inv_anti₀ (by norm_num) h2
  calc _ ≤ 1 / 2 * 1 := mul_le_mul h3 h1 (Real.exp_pos _).le (by norm_num)
    _ = 1 / 2 := mul_one _

/-- C80: for responses that are proportions and weights that are not negative, there is no exception
if all quadrature approximations are at most `1 - 1e-11`. (The integrals they approximate are always
less than 1.) -/
theorem c80_runs {link : String} (hl : IsLink link μ)
    (hfam : Family.ofNames "binomial" link = Except.ok pars.family)
    (hM : WellFormed M pars.theta.length) {g : Fin n → Fin q} (h2 : TwoLevel M g)
    (hb : pars.beta.length = p) (hq : 0 < q) (hrd : Reads lib.rd M)
    (har : lib.ar = exactZ ∨ lib.ar = i32 ∧ q ≤ 46341) (hr : RuleOk pars.quadratureRule)
    {mean : Fin q → ℝ} {Q : Matrix (Fin q) (Fin q) ℝ} (hQ : Q.PosDef)
    (hd : ∀ i j, i ≠ j → Q i j = 0) (hlog : ∀ i, Real.log (Q i i) ≠ 2 * logSqrtTwoPi)
    (hy : ∀ j, 0 ≤ M.resp j ∧ M.resp j ≤ 1) (hw : ∀ j, 0 ≤ weight M j)
    (hle : ∀ r, groupAgq pars.quadratureRule mean Q
      (groupIntegrand (logLikClamped μ) M pars.theta pars.beta g) r ≤ 1 - 1e-11) :
    ∃ c, clusterGraph lib pars M = Except.ok c ∧
      computeLogNormalizingConstant lib pars c mean Q = Except.ok
          (∑ r, Real.log (groupAgq pars.quadratureRule mean Q
            (groupIntegrand (logLikClamped μ) M pars.theta pars.beta g) r) + q * literalError) := by
  obtain ⟨c, e, -, h⟩ := c80 hl hfam hM h2 hb hq hrd har hr hQ hd hlog (mean := mean) (lib := lib)
  refine ⟨c, e, ?_⟩
  rcases h with ⟨-, hn⟩ | h
  · refine absurd ⟨fun r t => ?_, fun r => ?_⟩ hn
    · have hL : groupLogLik (logLikClamped μ) M pars.theta pars.beta g r t ≤ 0 := by
        refine Finset.sum_nonpos fun j _ => ?_
        refine (logLikClamped_le μ (hy j).1 (hy j).2 (hw j) _).trans ?_
        exact mul_nonpos_of_nonneg_of_nonpos (hw j) (Real.log_nonpos (by norm_num) (by norm_num))
      rw [groupIntegrand, Real.log_mul (Real.exp_ne_zero _) (pdf_pos t).ne', Real.log_exp]
      have h1 : Real.log (gaussianPDFReal 0 1 t) ≤ Real.log (1 / 2) :=
        Real.log_le_log (pdf_pos t) (pdf_le t)
      have h2 : Real.log (1 / 2) ≤ 1 / 2 - 1 := Real.log_le_sub_one_of_pos (by norm_num)
      have h3 := abs_le.1 literalError_small
      have h4 : (2 : ℝ) / 10 ^ 12 < 1 / 4 := by norm_num
      linarith [h3.2]
    · have h3 := (abs_le.1 literalError_small).2
      have hp : 0 < groupAgq pars.quadratureRule mean Q
          (groupIntegrand (logLikClamped μ) M pars.theta pars.beta g) r :=
        agq_pos hr (Real.sqrt_pos.mpr (inv_pos.mpr hQ.diag_pos)) fun t =>
          mul_pos (Real.exp_pos _) (pdf_pos t)
      have h5 := Real.log_le_sub_one_of_pos hp
      have h6 := hle r
      have h7 : (2 : ℝ) / 10 ^ 12 ≤ 1e-11 := by norm_num
      linarith
  · exact h

/-- The rules the package makes meet the condition of `c80`. -/
theorem ruleOk_create {eig : Eigensolver} {k : ℕ}
    (h : Quad.IsEigen (Quad.hermiteJacobi (k + 1)) (eig (k + 1) (Quad.hermiteJacobi (k + 1))).1
      (eig (k + 1) (Quad.hermiteJacobi (k + 1))).2) {rule : QuadratureRule}
    (hc : QuadratureRule.create eig ((k + 1 : ℕ) : ℤ) = Except.ok rule) : RuleOk rule := by
  have hc' := Except.ok.inj hc
  subst hc'
  refine ⟨by simp, fun w hw => ?_, ?_⟩
  · obtain ⟨i, rfl⟩ := List.mem_ofFn.mp hw
    exact Quad.c25_weights i
  · set V := (eig (k + 1) (Quad.hermiteJacobi (k + 1))).2
    have h1 : V * V.transpose = 1 := mul_eq_one_comm.mp h.orthogonal
    have h2 : ∑ i, V 0 i * V 0 i = 1 := by
      have := congrFun (congrFun h1 0) 0
      rw [Matrix.mul_apply, Matrix.one_apply_eq] at this
      exact this
    obtain ⟨i, hi⟩ : ∃ i, V 0 i ≠ 0 := by
      by_contra hn
      push Not at hn
      simp [hn] at h2
    refine ⟨_, List.mem_ofFn.mpr ⟨i, rfl⟩, ?_⟩
    show 0 < Quad.sqrtPi * V 0 i * V 0 i
    rw [mul_assoc]
    exact mul_pos (by rw [Quad.sqrtPi]; norm_num) (mul_self_pos.mpr hi)

/-! ## The likelihood of a two-level model -/

theorem eta_group {g : Fin n → Fin q} (h2 : TwoLevel M g) {size : ℕ} (hM : WellFormed M size)
    (theta beta : List ℝ) (u : Fin q → ℝ) (j : Fin n) :
    Spec.eta M theta beta u j = Spec.eta M theta beta (Pi.single (g j) (u (g j))) j := by
  unfold Verif.Split.Spec.eta
  congr 1
  refine Finset.sum_congr rfl fun r _ => ?_
  by_cases hr : r = g j
  · rw [hr, Pi.single_eq_same]
  · rw [Finset.sum_eq_zero fun c _ => ?_, zero_mul, zero_mul]
    by_contra h0
    have : r ∈ Active M j := ⟨c, lambdat_stored hM (left_ne_zero_of_mul h0),
      hM.zt c _ (right_ne_zero_of_mul h0)⟩
    rw [h2 j] at this
    exact hr this

/-- C80: the likelihood of a two-level model is the product of the integrals that `c80` shows to be
approximated. -/
theorem c80_likelihood (L : ℝ → ℝ → ℝ → ℝ) {g : Fin n → Fin q} (h2 : TwoLevel M g)
    {size : ℕ} (hM : WellFormed M size) (theta beta : List ℝ) :
    marginal L M theta beta = ∏ r, ∫ t, groupIntegrand L M theta beta g r t := by
  rw [← MeasureTheory.integral_fintype_prod_volume_eq_prod]
  refine MeasureTheory.integral_congr_ae (Filter.Eventually.of_forall fun u => ?_)
  show Real.exp _ * _ = ∏ r, Real.exp _ * _
  rw [Finset.prod_mul_distrib, ← Real.exp_sum]
  congr 2
  rw [logLikGiven]
  rw [← Finset.sum_fiberwise_of_maps_to (t := Finset.univ) (g := g) fun j _ => Finset.mem_univ _]
  refine Finset.sum_congr rfl fun r _ => Finset.sum_congr rfl fun j hj => ?_
  rw [eta_group h2 hM, (Finset.mem_filter.mp hj).2]

/-! ## A case meeting the hypotheses -/

/-- Three observations in two groups, with a random intercept. -/
noncomputable def twoGroups : ModFr 2 3 1 where
  X := Matrix.of fun _ _ => 1
  Zt := Matrix.of fun r j => if r = ![0, 0, 1] j then 1 else 0
  ztStored r j := r = ![0, 0, 1] j
  lambdat := [(0, 0), (1, 1)]
  Lind := [1, 1]
  resp := ![1, 0, 1]
  weights := none
  offset := 0

theorem twoGroups_wf : WellFormed twoGroups 1 where
  nodup := by decide
  diag c := by
    unfold twoGroups
    revert c
    decide
  length := rfl
  lind := by
    unfold twoGroups
    decide
  zt c j h := by
    unfold twoGroups at h ⊢
    simpa using h

theorem twoGroups_level : TwoLevel twoGroups ![0, 0, 1] := by
  intro j
  ext r
  rw [Set.mem_singleton_iff]
  constructor
  · rintro ⟨c, h, hc⟩
    have hc : c = ![0, 0, 1] j := by simpa [twoGroups] using hc
    have : r = c := by
      have h : (r, c) ∈ [((0 : Fin 2), (0 : Fin 2)), (1, 1)] := h
      simp only [List.mem_cons, Prod.mk.injEq, List.not_mem_nil, or_false] at h
      rcases h with ⟨rfl, rfl⟩ | ⟨rfl, rfl⟩ <;> rfl
    rw [this, hc]
  · intro h
    refine ⟨r, ?_, by simpa [twoGroups] using h⟩
    show (r, r) ∈ [((0 : Fin 2), (0 : Fin 2)), (1, 1)]
    clear h
    revert r
    decide

/-- Logit link, `theta = 1`, `beta = 0.5` and the quadrature rule with one point. -/
noncomputable def twoPars : Parameters :=
  { logitPars 1 0.5 with quadratureRule := ⟨[0], [Quad.sqrtPi]⟩ }

theorem twoPars_rule : RuleOk twoPars.quadratureRule := by
  have h : (0 : ℝ) < Quad.sqrtPi := by rw [Quad.sqrtPi]; norm_num
  exact ⟨rfl, by simp [twoPars, h.le], ⟨_, by simp [twoPars], h⟩⟩

theorem twoGroups_weight (j : Fin 3) : weight twoGroups j = 1 := rfl

theorem twoGroups_resp (j : Fin 3) : 0 ≤ twoGroups.resp j ∧ twoGroups.resp j ≤ 1 := by
  unfold twoGroups
  fin_cases j <;> simp

theorem pdf_zero : gaussianPDFReal 0 1 0 = (Real.sqrt (2 * Real.pi))⁻¹ := by
  simp [gaussianPDFReal]

theorem twoGroups_agq (r : Fin 2) : groupAgq twoPars.quadratureRule 0 1
    (groupIntegrand (logLikClamped expit) twoGroups twoPars.theta twoPars.beta ![0, 0, 1]) r ≤
      1 - 1e-11 := by
  set L := groupLogLik (logLikClamped expit) twoGroups twoPars.theta twoPars.beta ![0, 0, 1] r 0
    with hL
  have h1 : Real.exp L ≤ 1 - 1e-8 := by
    have h0 : (0 : ℝ) < 1 - 1e-8 := by norm_num
    rw [← Real.exp_log h0, Real.exp_le_exp]
    have hneg : Real.log (1 - 1e-8) ≤ 0 := Real.log_nonpos (by norm_num) (by norm_num)
    obtain ⟨j, hj⟩ : ∃ j : Fin 3, (![0, 0, 1] : Fin 3 → Fin 2) j = r :=
      (by decide : ∀ r, ∃ j : Fin 3, (![0, 0, 1] : Fin 3 → Fin 2) j = r) r
    have hb : ∀ j : Fin 3, logLikClamped expit (twoGroups.resp j) (weight twoGroups j)
        (Spec.eta twoGroups twoPars.theta twoPars.beta (Pi.single r 0) j) ≤ Real.log (1 - 1e-8) := by
      intro j
      have := logLikClamped_le expit (twoGroups_resp j).1 (twoGroups_resp j).2
        (by rw [twoGroups_weight]; exact zero_le_one)
        (Spec.eta twoGroups twoPars.theta twoPars.beta (Pi.single r 0) j) (w := weight twoGroups j)
      rwa [twoGroups_weight, one_mul] at this
    rw [hL, groupLogLik, ← Finset.add_sum_erase _ _ (Finset.mem_filter.mpr ⟨Finset.mem_univ j, hj⟩)]
    have h2 := Finset.sum_nonpos (s := (Finset.univ.filter
      fun k : Fin 3 => (![0, 0, 1] : Fin 3 → Fin 2) k = r).erase j) fun k _ => (hb k).trans hneg
    linarith [hb j]
  have h2 : Quad.sqrtPi / Real.sqrt Real.pi ≤ 1 + 1e-10 := by
    have := (abs_lt.1 Quad.c25_constant).2
    linarith
  have h3 : groupAgq twoPars.quadratureRule 0 1
      (groupIntegrand (logLikClamped expit) twoGroups twoPars.theta twoPars.beta ![0, 0, 1]) r =
      Quad.sqrtPi / Real.sqrt Real.pi * Real.exp L := by
    unfold groupAgq Verif.Spec.agq twoPars
    simp only [List.zip_cons_cons, List.zip_nil_right, List.map_cons, List.map_nil, List.sum_cons,
      List.sum_nil, Matrix.one_apply_eq, inv_one, Real.sqrt_one, mul_zero, Pi.zero_apply, add_zero]
    rw [groupIntegrand, pdf_zero, Real.sqrt_mul zero_le_two]
    have s2 : Real.sqrt 2 ≠ 0 := (Real.sqrt_pos.mpr two_pos).ne'
    have sp : Real.sqrt Real.pi ≠ 0 := (Real.sqrt_pos.mpr Real.pi_pos).ne'
    rw [show groupLogLik (logLikClamped expit) twoGroups (logitPars 1 0.5).theta
      (logitPars 1 0.5).beta ![0, 0, 1] r 0 = L from rfl]
    field_simp
    simp
  rw [h3]
  calc _ ≤ (1 + 1e-10) * (1 - 1e-8 : ℝ) := mul_le_mul h2 h1 (Real.exp_pos _).le (by norm_num)
    _ ≤ _ := by norm_num

example (lib : Lib) (har : lib.ar = i32) (hrd : lib.rd = read) :
    ∃ c, clusterGraph lib twoPars twoGroups = Except.ok c ∧
      computeLogNormalizingConstant lib twoPars c (0 : Fin 2 → ℝ) 1 = Except.ok
          (∑ r, Real.log (groupAgq twoPars.quadratureRule 0 1 (groupIntegrand
            (logLikClamped expit) twoGroups [1] [0.5] ![0, 0, 1]) r) + (2 : ℕ) * literalError) :=
  c80_runs .logit (pars := twoPars) rfl twoGroups_wf twoGroups_level rfl two_pos
    (by rw [hrd]; exact ⟨fun _ _ _ _ => rfl, Or.inl (by simp [twoGroups])⟩)
    (Or.inr ⟨har, by norm_num⟩) twoPars_rule Matrix.PosDef.one
    (fun i j h => Matrix.one_apply_ne h)
    (fun i => by rw [Matrix.one_apply_eq, Real.log_one, logSqrtTwoPi]; norm_num)
    twoGroups_resp (fun j => by rw [twoGroups_weight]; exact zero_le_one) twoGroups_agq

end Verif.SR
