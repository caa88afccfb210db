import Verif.Proofs.Grouped
import Verif.Props.Lfun
import Verif.Props.IS
import Verif.Props.Hol

/-!
# C88: grouped observations
-/
namespace Verif.Grouped

open Verif.Belief Verif.ClusterGraph Verif.Gauss Verif.Split Verif.Pars Verif.Param Verif.GLMM
open Verif.Family

variable {q n N p : ℕ} {M : ModFr q n p} {M' : ModFr q N p} {ρ : Fin N → Fin n}

/-! ## The model -/

theorem sum_frames (h : Rows M M' ρ) (a b : Fin n → ℝ) :
    ∑ k, (Split.Spec.weight M' k * M'.resp k * a (ρ k) + Split.Spec.weight M' k * b (ρ k)) =
      ∑ i, (Split.Spec.weight M i * M.resp i * a i + Split.Spec.weight M i * b i) := by
  rw [← Finset.sum_fiberwise (s := Finset.univ) (g := ρ)]
  refine Finset.sum_congr rfl fun i _ => ?_
  rw [← h.total i, ← h.weight i, Finset.sum_mul, Finset.sum_mul, ← Finset.sum_add_distrib]
  refine Finset.sum_congr rfl fun k hk => ?_
  rw [(Finset.mem_filter.1 hk).2]

theorem eta_rel (h : Rows M M' ρ) (theta beta : List ℝ) (u : Fin q → ℝ) (k : Fin N) :
    Split.Spec.eta M' theta beta u k = Split.Spec.eta M theta beta u (ρ k) := by
  have hl : Split.Spec.lambdat M' theta = Split.Spec.lambdat M theta := by
    funext r c
    unfold Split.Spec.lambdat
    rw [h.lambdat, h.Lind]
  unfold Split.Spec.eta
  simp only [h.X, h.Zt, hl]

/-- C88, the model: the log-integrand is the same function. -/
theorem c88_integrand (h : Rows M M' ρ) (μ : ℝ → ℝ) (theta beta : List ℝ) (u : Fin q → ℝ) :
    Split.Spec.logIntegrand M' μ theta beta u = Split.Spec.logIntegrand M μ theta beta u := by
  unfold Split.Spec.logIntegrand
  congr 1
  have := sum_frames h
    (fun i => Real.log (μ (Split.Spec.eta M theta beta u i)) -
      Real.log (1 - μ (Split.Spec.eta M theta beta u i)))
    (fun i => Real.log (1 - μ (Split.Spec.eta M theta beta u i)))
  simp only [← eta_rel h] at this
  refine Eq.trans (Finset.sum_congr rfl fun i _ => ?_) (this.trans
    (Finset.sum_congr rfl fun i _ => ?_)) <;> unfold logLik <;> ring

/-! ## Sequential reduction -/

/-- The two deviance functions fail together, or leave behind the same normal approximation. The
deviances may differ (they are relative to the saturated model, which is not the same). -/
def SameMode (devfun devfun' : List ℝ → Res (ℝ × Lfun.PP q)) : Prop :=
  ∀ x, RelRes (fun r r' => r.2 = r'.2) (devfun x) (devfun' x)

/-- The same value or error, unless one of the results is refused as suspect by comparison with the
deviance (R/loglikelihood.R:71-74). -/
def Agree (r r' : Res ℝ) : Prop :=
  r = r' ∨ r = Res.raise "Suspect sequential reduction approximation is unstable" ∨
    r' = Res.raise "Suspect sequential reduction approximation is unstable"

theorem checkedValue_agree {lib : SR.Lib} {pars : Parameters} {c c' : CG (Mixed SR.Factor NB)}
    (hc : CGRel (MixedRel (Same lib)) c c') {r r' : ℝ × IS.NormalApprox q} (hr : r.2 = r'.2) :
    Agree (Lfun.checkedValue lib pars c r) (Lfun.checkedValue lib pars c' r') := by
  unfold Lfun.checkedValue
  rw [← hr, ← computeLogNormalizingConstant_rel hc]
  rcases SR.computeLogNormalizingConstant lib pars c r.2.mean r.2.precision with e | v
  · exact .inl rfl
  · simp only [res_ok_bind]
    split_ifs
    · exact .inl rfl
    · exact .inr (.inl rfl)
    · exact .inr (.inr rfl)
    · exact .inl rfl

theorem value_agree {lib : SR.Lib} {pars : Parameters} {c c' : CG (Mixed SR.Factor NB)}
    (hc : CGRel (MixedRel (Same lib)) c c') {devfun devfun' : List ℝ → Res (ℝ × Lfun.PP q)}
    (hd : SameMode devfun devfun') (nFixed nTheta : ℕ) (x : List ℝ) :
    Agree (Lfun.value lib nFixed nTheta c devfun x pars)
      (Lfun.value lib nFixed nTheta c' devfun' x pars) := by
  unfold Lfun.value
  split
  · exact .inl rfl
  · generalize devfun x = r, devfun' x = r', hd x = h
    cases h with
    | ok h => exact checkedValue_agree hc (by rw [Lfun.computeNormalApprox, Lfun.computeNormalApprox, h])
    | err e => exact .inl rfl

/-- C88, sequential reduction: both models are refused with the same error, or for any sequence of
calls of the approximate log-likelihoods the results agree. -/
theorem c88 (h : Groups M M' ρ) (hc : Split.Spec.Covered M) (lib : SR.Lib) (env : Env)
    (family link : String) (nSL nAGQ : ℝ) :
    (∃ e, Lfun.findLfunSR lib env M family link nSL nAGQ = Except.error e ∧
      Lfun.findLfunSR lib env M' family link nSL nAGQ = Except.error e) ∨
    ∃ pars c c', Lfun.findLfunSR lib env M family link nSL nAGQ = Except.ok (pars, c) ∧
      Lfun.findLfunSR lib env M' family link nSL nAGQ = Except.ok (pars, c') ∧
      ∀ (nFixed nTheta : ℕ) (devfun devfun' : List ℝ → Res (ℝ × Lfun.PP q)),
        SameMode devfun devfun' → ∀ xs, List.Forall₂ Agree
          (Lfun.calls lib nFixed nTheta c devfun xs pars)
          (Lfun.calls lib nFixed nTheta c' devfun' xs pars) := by
  have key := findLfunSR_rel h (active_of_covered hc) lib env family link nSL nAGQ
  generalize Lfun.findLfunSR lib env M family link nSL nAGQ = r at key ⊢
  generalize Lfun.findLfunSR lib env M' family link nSL nAGQ = r' at key ⊢
  cases key with
  | err e => exact .inl ⟨e, rfl, rfl⟩
  | @ok r r' hr =>
    obtain ⟨pars, c⟩ := r
    obtain ⟨pars', c'⟩ := r'
    obtain ⟨rfl, hr⟩ := hr
    refine .inr ⟨pars, c, c', rfl, rfl, fun nFixed nTheta devfun devfun' hd xs => ?_⟩
    rw [Lfun.c81_history, Lfun.c81_history, List.forall₂_map_left_iff, List.forall₂_map_right_iff]
    refine List.forall₂_same.2 fun x _ => ?_
    rw [Lfun.exec_lfun, Lfun.exec_lfun]
    exact value_agree hr hd nFixed nTheta x

/-- C88: with the same deviance function, too, the results are equal. -/
theorem c88_same (h : Groups M M' ρ) (hc : Split.Spec.Covered M) (lib : SR.Lib) (env : Env)
    (family link : String) (nSL nAGQ : ℝ) {pars : Parameters} {c : CG (Mixed SR.Factor NB)}
    (hM : Lfun.findLfunSR lib env M family link nSL nAGQ = Except.ok (pars, c)) :
    ∃ c', Lfun.findLfunSR lib env M' family link nSL nAGQ = Except.ok (pars, c') ∧
      ∀ (nFixed nTheta : ℕ) (devfun : List ℝ → Res (ℝ × Lfun.PP q)) (xs : List (List ℝ)),
        Lfun.calls lib nFixed nTheta c devfun xs pars =
          Lfun.calls lib nFixed nTheta c' devfun xs pars := by
  have key := findLfunSR_rel h (active_of_covered hc) lib env family link nSL nAGQ
  rw [hM] at key
  generalize Lfun.findLfunSR lib env M' family link nSL nAGQ = r' at key ⊢
  cases key with
  | @ok _ r' hr =>
    obtain ⟨pars', c'⟩ := r'
    obtain ⟨rfl, hr⟩ := hr
    refine ⟨c', rfl, fun nFixed nTheta devfun xs => ?_⟩
    rw [Lfun.c81_history, Lfun.c81_history]
    refine List.map_congr_left fun x _ => ?_
    rw [Lfun.exec_lfun, Lfun.exec_lfun]
    unfold Lfun.value Lfun.checkedValue
    simp only [computeLogNormalizingConstant_rel hr]

/-! ## Importance sampling -/

theorem wellFormed_rel (h : Rows M M' ρ) {size : ℕ} (hM : Split.Spec.WellFormed M size) :
    Split.Spec.WellFormed M' size := by
  refine ⟨?_, ?_, ?_, ?_, fun c j hz => ?_⟩
  · rw [h.lambdat]; exact hM.nodup
  · rw [h.lambdat]; exact hM.diag
  · rw [h.lambdat, h.Lind]; exact hM.length
  · rw [h.Lind]; exact hM.lind
  · rw [h.ztStored]; exact hM.zt _ _ (by rw [← h.Zt]; exact hz)

/-- C88, importance sampling: for the same samples and normal approximation the two approximations
differ by the difference of the log-likelihoods of the saturated models, which does not depend on the
parameters or the samples. -/
theorem c88_IS {link : String} {μ : ℝ → ℝ} (hl : GLMM.IsLink link μ) (h : Rows M M' ρ)
    {theta beta : List ℝ} (hM : Split.Spec.WellFormed M theta.length) (ht : theta ≠ [])
    (hb : beta.length = p) {r : ℕ} (hr : 0 < r)
    (chol : Matrix (Fin q) (Fin q) ℝ → Matrix (Fin q) (Fin q) ℝ) (approx : IS.NormalApprox q)
    (z : Matrix (Fin q) (Fin r) ℝ) :
    ∃ v, IS.lfun chol ⟨μ, IS.binomialDev⟩ M theta.length approx z (theta ++ beta) =
        Except.ok (v - ∑ i, IS.Spec.saturated (M.resp i) (Split.Spec.weight M i)) ∧
      IS.lfun chol ⟨μ, IS.binomialDev⟩ M' theta.length approx z (theta ++ beta) =
        Except.ok (v - ∑ k, IS.Spec.saturated (M'.resp k) (Split.Spec.weight M' k)) := by
  have hv : ∀ {m : ℕ} (F : ModFr q m p), Split.Spec.WellFormed F theta.length →
      IS.lfun chol ⟨μ, IS.binomialDev⟩ F theta.length approx z (theta ++ beta) =
        Except.ok (IS.logMeanExp (IS.findLogWeights chol z (fun u s =>
          Split.Spec.logIntegrand F μ theta beta fun i => u i s) approx) -
          ∑ i, IS.Spec.saturated (F.resp i) (Split.Spec.weight F i)) := by
    intro m F hF
    obtain ⟨f, hf, hval⟩ := IS.findLogIntegrand_ok ⟨μ, IS.binomialDev⟩ hF ht hb
    unfold IS.lfun
    rw [hf, res_ok_bind]
    refine congrArg Except.ok ?_
    set K := ∑ i, IS.Spec.saturated (F.resp i) (Split.Spec.weight F i) with hK
    have hw : IS.findLogWeights chol z (f r) approx = fun s => IS.findLogWeights chol z (fun u s =>
        Split.Spec.logIntegrand F μ theta beta fun i => u i s) approx s - K := by
      funext s
      unfold IS.findLogWeights
      dsimp only
      rw [hval, IS.binomial_logIntegrand hl]
      ring
    rw [hw]
    unfold IS.logMeanExp
    dsimp only
    have hr' : (r : ℝ) ≠ 0 := by exact_mod_cast hr.ne'
    rw [Finset.sum_sub_distrib, Finset.sum_const, Finset.card_univ, Fintype.card_fin, nsmul_eq_mul,
      sub_div, mul_div_cancel_left₀ _ hr']
    simp only [sub_sub_sub_cancel_right]
    ring
  refine ⟨_, hv M hM, ?_⟩
  rw [hv M' (wellFormed_rel h hM)]
  simp only [c88_integrand h]

/-! ## The Laplace approximation of second order -/

/-- Sums of `γ'` over the observations are sums of `γ` over the groups. -/
def Sums (ρ : Fin N → Fin n) (γ : Fin n → ℝ) (γ' : Fin N → ℝ) : Prop :=
  ∀ c : Fin n → ℝ, ∑ k, γ' k * c (ρ k) = ∑ i, γ i * c i

theorem lin_sums (h : Rows M M' ρ) {eta : Fin n → ℝ} {eta' : Fin N → ℝ}
    (he : ∀ k, eta' k = eta (ρ k)) (a b : ℝ → ℝ) :
    Sums ρ (fun i => -(Split.Spec.weight M i * M.resp i * a (eta i) +
        Split.Spec.weight M i * b (eta i)))
      (fun k => -(Split.Spec.weight M' k * M'.resp k * a (eta' k) +
        Split.Spec.weight M' k * b (eta' k))) := by
  intro c
  have := sum_frames h (fun i => -(a (eta i) * c i)) (fun i => -(b (eta i) * c i))
  simp only [← he] at this
  refine Eq.trans (Finset.sum_congr rfl fun i _ => ?_) (this.trans
    (Finset.sum_congr rfl fun i _ => ?_)) <;> ring

theorem epsilonOf_rel {γ3 γ4 : Fin n → ℝ} {γ3' γ4' : Fin N → ℝ} (h3 : Sums ρ γ3 γ3')
    (h4 : Sums ρ γ4 γ4') {A : Matrix (Fin n) (Fin n) ℝ} {A' : Matrix (Fin N) (Fin N) ℝ}
    (hA : ∀ k l, A' k l = A (ρ k) (ρ l)) : Hol.epsilonOf γ3' γ4' A' = Hol.epsilonOf γ3 γ4 A := by
  unfold Hol.epsilonOf
  have e4 : ∑ j, γ4' j * A' j j ^ 2 = ∑ j, γ4 j * A j j ^ 2 := by
    simp only [hA]; exact h4 fun i => A i i ^ 2
  have e13 : (fun j => γ3' j * A' j j) ⬝ᵥ (A'.transpose.mulVec fun j => γ3' j * A' j j) =
      (fun j => γ3 j * A j j) ⬝ᵥ (A.transpose.mulVec fun j => γ3 j * A j j) := by
    simp only [dotProduct, Matrix.mulVec, Matrix.transpose_apply, hA]
    have hi : ∀ k, ∑ l, A (ρ l) (ρ k) * (γ3' l * A (ρ l) (ρ l)) =
        ∑ j, A j (ρ k) * (γ3 j * A j j) := fun k => by
      refine Eq.trans (Finset.sum_congr rfl fun l _ => ?_) ((h3 fun j => A j (ρ k) * A j j).trans
        (Finset.sum_congr rfl fun l _ => ?_)) <;> ring
    simp only [hi]
    refine Eq.trans (Finset.sum_congr rfl fun l _ => ?_)
      ((h3 fun i => A i i * ∑ j, A j i * (γ3 j * A j j)).trans
        (Finset.sum_congr rfl fun l _ => ?_)) <;> ring
  have e23 : γ3' ⬝ᵥ ((Matrix.of fun i j => A' i j ^ 3).transpose.mulVec γ3') =
      γ3 ⬝ᵥ ((Matrix.of fun i j => A i j ^ 3).transpose.mulVec γ3) := by
    simp only [dotProduct, Matrix.mulVec, Matrix.transpose_apply, Matrix.of_apply, hA]
    have hi : ∀ k, ∑ l, A (ρ l) (ρ k) ^ 3 * γ3' l = ∑ j, A j (ρ k) ^ 3 * γ3 j := fun k => by
      simp only [mul_comm (_ ^ 3)]
      exact h3 fun j => A j (ρ k) ^ 3
    simp only [hi]
    exact h3 fun i => ∑ j, A j i ^ 3 * γ3 j
  dsimp only
  rw [e4, e13, e23]

/-- C88, Laplace approximation of second order: the correction is the same. -/
theorem c88_hol (h : Rows M M' ρ) {theta beta : List ℝ}
    (hM : Split.Spec.WellFormed M theta.length) (ht : theta ≠ []) (hb : beta.length = p)
    (family link : String) (approx : IS.NormalApprox q) :
    Hol.findEpsilon1 family link (theta ++ beta) M' theta.length approx =
      Hol.findEpsilon1 family link (theta ++ beta) M theta.length approx := by
  have hw : ∀ {m : ℕ} (F : ModFr q m p),
      (fun j : Fin m => (IS.weightsOf F).getD j 0) = Split.Spec.weight F := fun F => by
    funext j
    rw [IS.weightsOf_eq, List.getD_eq_getElem _ _ (by simp), List.getElem_ofFn]
  unfold Hol.findEpsilon1
  rcases Family.ofNames family link with e | f
  · rfl
  simp only [res_ok_bind, Hol.etaHat_eq hM ht hb, Hol.etaHat_eq (wellFormed_rel h hM) ht hb, hw]
  rcases third_lin f with h3 | ⟨a3, b3, h3⟩
  · simp only at h3
    rw [h3, h3]; rfl
  rcases fourth_lin f with h4 | ⟨a4, b4, h4⟩
  · simp only at h3 h4
    rw [h3, h3, h4, h4]; rfl
  simp only at h3 h4
  rw [h3, h3, h4, h4]
  simp only [res_ok_bind]
  unfold Hol.findM
  rw [IS.findLambdatThetaZt_ok beta hM ht, IS.findLambdatThetaZt_ok beta (wellFormed_rel h hM) ht]
  simp only [res_ok_bind]
  split
  · rfl
  refine congrArg Except.ok (epsilonOf_rel (ρ := ρ) (lin_sums h (eta_rel h _ _ _) a3 b3)
    (lin_sums h (eta_rel h _ _ _) a4 b4) fun k l => ?_)
  have hl : Split.Spec.lambdat M' theta = Split.Spec.lambdat M theta := by
    funext r c
    unfold Split.Spec.lambdat
    rw [h.lambdat, h.Lind]
  rw [Matrix.mul_apply, Matrix.mul_apply]
  refine Finset.sum_congr rfl fun r _ => ?_
  simp only [Matrix.mul_apply, Matrix.transpose_apply, hl, h.Zt]

/-! ## A case -/

/-- Two groups: two of three successes, and one of two. -/
noncomputable def proportions : ModFr 2 2 1 where
  X := !![1; 2]
  Zt := !![1, 0; 0, 1]
  ztStored := fun r j => r = j
  lambdat := [(0, 0), (1, 1)]
  Lind := [1, 1]
  resp := ![2 / 3, 1 / 2]
  weights := some ![3, 2]
  offset := 0

/-- The group of each of five observations. -/
def group : Fin 5 → Fin 2 := ![0, 1, 0, 0, 1]

/-- The five observations. -/
noncomputable def single : ModFr 2 5 1 where
  X := !![1; 2; 1; 1; 2]
  Zt := !![1, 0, 1, 1, 0; 0, 1, 0, 0, 1]
  ztStored := fun r j => r = group j
  lambdat := [(0, 0), (1, 1)]
  Lind := [1, 1]
  resp := ![1, 0, 1, 0, 1]
  weights := none
  offset := 0

theorem groups_single : Groups proportions single group where
  X k j := by fin_cases k <;> fin_cases j <;> rfl
  Zt r k := by fin_cases k <;> fin_cases r <;> rfl
  ztStored r k := rfl
  offset k := rfl
  lambdat := rfl
  Lind := rfl
  weight i := by
    rw [Finset.sum_filter, Fin.sum_univ_five]
    fin_cases i <;> simp [Split.Spec.weight, proportions, single, group] <;> norm_num
  total i := by
    rw [Finset.sum_filter, Fin.sum_univ_five]
    fin_cases i <;> simp [Split.Spec.weight, proportions, single, group] <;> norm_num
  order := by decide

theorem covered_proportions : Split.Spec.Covered proportions := fun j =>
  ⟨j, j, by fin_cases j <;> simp [proportions], by simp [proportions]⟩

theorem proportions_wf : Split.Spec.WellFormed proportions 1 where
  nodup := by decide
  diag c := by
    unfold proportions
    revert c
    decide
  length := rfl
  lind := by
    unfold proportions
    decide
  zt c j h := by
    unfold proportions at h ⊢
    fin_cases c <;> fin_cases j <;> simp at h ⊢

theorem proportions_level : SR.TwoLevel proportions ![0, 1] := by
  intro j
  ext r
  rw [Set.mem_singleton_iff]
  have hj : ![(0 : Fin 2), 1] j = j := by fin_cases j <;> rfl
  rw [hj]
  constructor
  · rintro ⟨c, h, hc⟩
    have hc : c = j := by simpa [proportions] using hc
    have h : (r, c) ∈ [((0 : Fin 2), (0 : Fin 2)), (1, 1)] := h
    simp only [List.mem_cons, Prod.mk.injEq, List.not_mem_nil, or_false] at h
    rcases h with ⟨rfl, rfl⟩ | ⟨rfl, rfl⟩ <;> exact hc
  · rintro rfl
    refine ⟨r, ?_, by simp [proportions]⟩
    show (r, r) ∈ [((0 : Fin 2), (0 : Fin 2)), (1, 1)]
    fin_cases r <;> simp

/-- The grouped and the single observations are accepted and have the same log-likelihood by
sequential reduction. -/
example (lib : SR.Lib) (har : lib.ar = i32) (hrd : lib.rd = GLMM.read) :
    ∃ (env : Env) (pars : Parameters) (c c' : CG (Mixed SR.Factor NB)),
      Lfun.findLfunSR lib env proportions "binomial" "probit" 1 3 = Except.ok (pars, c) ∧
      Lfun.findLfunSR lib env single "binomial" "probit" 1 3 = Except.ok (pars, c') ∧
      ∀ (devfun : List ℝ → Res (ℝ × Lfun.PP 2)) (xs : List (List ℝ)),
        Lfun.calls lib 1 1 c devfun xs pars = Lfun.calls lib 1 1 c' devfun xs pars := by
  obtain ⟨Qf, hQ⟩ := NormalQuantile.exists_quantile
  obtain ⟨values, vectors, he⟩ := Quad.c25_exists 2
  let eig : Eigensolver := fun m => if h : m = 3 then fun _ => h ▸ (values, vectors) else fun _ => (0, 0)
  obtain ⟨pars, c, rule, -, h2, -⟩ := Lfun.c81 .probit proportions_wf proportions_level two_pos
    (by norm_num) le_rfl har
    (by rw [hrd]; exact ⟨fun _ _ _ _ => rfl, Or.inl (by simp [proportions])⟩)
    hQ (eig := eig) (k := 1) le_rfl (by norm_num) he
  have h2' : Lfun.findLfunSR lib ⟨i32, Qf, eig⟩ proportions "binomial" "probit" 1 3 =
      Except.ok (pars, c) := by
    rw [← h2]
    norm_num
  obtain ⟨c', h3, h4⟩ := c88_same groups_single covered_proportions lib ⟨i32, Qf, eig⟩ _ _ _ _ h2'
  exact ⟨⟨i32, Qf, eig⟩, pars, c, c', h2', h3, h4 1 1⟩

/-- With variance parameter 2 and coefficient 1/2, the corrections of second order are the same. -/
example (approx : IS.NormalApprox 2) :
    Hol.findEpsilon1 "binomial" "logit" [2, 1 / 2] single 1 approx =
      Hol.findEpsilon1 "binomial" "logit" [2, 1 / 2] proportions 1 approx :=
  c88_hol (theta := [2]) (beta := [1 / 2]) groups_single.toRows proportions_wf (by simp) rfl _ _ _

/-- By importance sampling with 10 samples, the difference is that of the saturated models. -/
example (chol : Matrix (Fin 2) (Fin 2) ℝ → Matrix (Fin 2) (Fin 2) ℝ) (approx : IS.NormalApprox 2)
    (z : Matrix (Fin 2) (Fin 10) ℝ) :
    ∃ v, IS.lfun chol ⟨expit, IS.binomialDev⟩ proportions 1 approx z [2, 1 / 2] =
        Except.ok (v - (2 * Real.log (2 / 3) + Real.log (1 / 3) + 2 * Real.log (1 / 2))) ∧
      IS.lfun chol ⟨expit, IS.binomialDev⟩ single 1 approx z [2, 1 / 2] = Except.ok v := by
  obtain ⟨v, h1, h2⟩ := c88_IS (theta := [2]) (beta := [1 / 2]) .logit groups_single.toRows proportions_wf
    (by simp) rfl (by norm_num : 0 < 10) chol approx z
  refine ⟨v, h1.trans ?_, h2.trans ?_⟩
  · congr 2
    simp only [Fin.sum_univ_two, IS.Spec.saturated, Split.Spec.weight, proportions]
    norm_num
    ring
  · congr 1
    simp [Fin.sum_univ_five, IS.Spec.saturated, Split.Spec.weight, single]

end Verif.Grouped
