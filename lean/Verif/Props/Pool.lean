import Verif.Props.IS
import Verif.Props.Factorization

/-!
# C113: the importance sampling estimate is an average over the samples
-/
namespace Verif.IS

open Verif.Split Verif.Family

variable {q n p r r₁ r₂ : ℕ} {M : ModFr q n p} {theta beta : List ℝ}
  {chol : Matrix (Fin q) (Fin q) ℝ → Matrix (Fin q) (Fin q) ℝ} {fam : Fam} {approx : NormalApprox q}

/-- The samples of two runs together. -/
def pooled (z₁ : Matrix (Fin q) (Fin r₁) ℝ) (z₂ : Matrix (Fin q) (Fin r₂) ℝ) :
    Matrix (Fin q) (Fin (r₁ + r₂)) ℝ := Matrix.of fun i => Fin.append (z₁ i) (z₂ i)

/-- Sample `s` alone. -/
def single (z : Matrix (Fin q) (Fin r) ℝ) (s : Fin r) : Matrix (Fin q) (Fin 1) ℝ :=
  Matrix.of fun i _ => z i s

/-- Each sample has a weight that does not depend on the others. -/
theorem lfun_average (h : Split.Spec.WellFormed M theta.length) (ht : theta ≠ [])
    (hb : beta.length = p) : ∃ w : (Fin q → ℝ) → ℝ, (∀ x, 0 < w x) ∧
      ∀ {r : ℕ}, 0 < r → ∀ z : Matrix (Fin q) (Fin r) ℝ,
        lfun chol fam M theta.length approx z (theta ++ beta) =
          Except.ok (Real.log ((∑ s, w fun i => z i s) / r)) := by
  obtain ⟨f, hf, hv⟩ := findLogIntegrand_ok fam h ht hb
  refine ⟨fun x => Real.exp (findLogWeights chol (Matrix.of fun i (_ : Fin 1) => x i) (f 1) approx 0),
    fun x => Real.exp_pos _, fun {r} hr z => ?_⟩
  unfold lfun
  rw [hf, res_ok_bind]
  refine congrArg Except.ok ?_
  rw [c47_average hr]
  refine congrArg (fun t => Real.log (t / r)) (Finset.sum_congr rfl fun s _ => congrArg Real.exp ?_)
  unfold findLogWeights
  dsimp only
  rw [hv, hv]
  rfl

/-- C113: the order of the samples does not matter. -/
theorem c113_order (h : Split.Spec.WellFormed M theta.length) (ht : theta ≠ []) (hb : beta.length = p)
    (hr : 0 < r) (z : Matrix (Fin q) (Fin r) ℝ) (σ : Equiv.Perm (Fin r)) :
    lfun chol fam M theta.length approx (z.submatrix id σ) (theta ++ beta) =
      lfun chol fam M theta.length approx z (theta ++ beta) := by
  obtain ⟨w, -, hw⟩ := lfun_average (chol := chol) (fam := fam) (approx := approx) h ht hb
  rw [hw hr, hw hr]
  refine congrArg (fun t => Except.ok (Real.log (t / r))) ?_
  exact Equiv.sum_comp σ fun s => w fun i => z i s

/-- C113: the estimate of two runs together is the average of the estimates, in proportion to the
numbers of samples. -/
theorem c113_pool (h : Split.Spec.WellFormed M theta.length) (ht : theta ≠ []) (hb : beta.length = p)
    (h₁ : 0 < r₁) (h₂ : 0 < r₂) (z₁ : Matrix (Fin q) (Fin r₁) ℝ) (z₂ : Matrix (Fin q) (Fin r₂) ℝ) :
    ∃ v₁ v₂ v, lfun chol fam M theta.length approx z₁ (theta ++ beta) = Except.ok v₁ ∧
      lfun chol fam M theta.length approx z₂ (theta ++ beta) = Except.ok v₂ ∧
      lfun chol fam M theta.length approx (pooled z₁ z₂) (theta ++ beta) = Except.ok v ∧
      Real.exp v = (r₁ * Real.exp v₁ + r₂ * Real.exp v₂) / (r₁ + r₂) := by
  obtain ⟨w, hpos, hw⟩ := lfun_average (chol := chol) (fam := fam) (approx := approx) h ht hb
  refine ⟨_, _, _, hw h₁ z₁, hw h₂ z₂, hw (Nat.add_pos_left h₁ _) (pooled z₁ z₂), ?_⟩
  have n₁ : (0 : ℝ) < r₁ := by exact_mod_cast h₁
  have n₂ : (0 : ℝ) < r₂ := by exact_mod_cast h₂
  have pos : ∀ {k : ℕ}, 0 < k → ∀ z : Matrix (Fin q) (Fin k) ℝ, 0 < (∑ s, w fun i => z i s) / k := by
    intro k hk z
    have : (Finset.univ : Finset (Fin k)).Nonempty := ⟨⟨0, hk⟩, Finset.mem_univ _⟩
    exact div_pos (Finset.sum_pos (fun s _ => hpos _) this) (by exact_mod_cast hk)
  rw [Real.exp_log (pos (Nat.add_pos_left h₁ _) _), Real.exp_log (pos h₁ _), Real.exp_log (pos h₂ _),
    Fin.sum_univ_add, mul_div_cancel₀ _ n₁.ne', mul_div_cancel₀ _ n₂.ne', Nat.cast_add]
  simp [pooled]

/-- C113: the estimate lies between the least and the largest estimate from a single sample. -/
theorem c113_between (h : Split.Spec.WellFormed M theta.length) (ht : theta ≠ [])
    (hb : beta.length = p) (hr : 0 < r) (z : Matrix (Fin q) (Fin r) ℝ) :
    ∃ v, lfun chol fam M theta.length approx z (theta ++ beta) = Except.ok v ∧
      (∃ s a, lfun chol fam M theta.length approx (single z s) (theta ++ beta) = Except.ok a ∧ a ≤ v) ∧
      ∃ s b, lfun chol fam M theta.length approx (single z s) (theta ++ beta) = Except.ok b ∧ v ≤ b := by
  obtain ⟨w, hpos, hw⟩ := lfun_average (chol := chol) (fam := fam) (approx := approx) h ht hb
  have hne : (Finset.univ : Finset (Fin r)).Nonempty := ⟨⟨0, hr⟩, Finset.mem_univ _⟩
  have n : (0 : ℝ) < r := by exact_mod_cast hr
  have hs : ∀ s, lfun chol fam M theta.length approx (single z s) (theta ++ beta) =
      Except.ok (Real.log (w fun i => z i s)) := fun s => by
    rw [hw one_pos]
    simp [single]
  refine ⟨_, hw hr z, ?_, ?_⟩
  · obtain ⟨s, -, h1⟩ := Finset.exists_min_image Finset.univ (fun s => w fun i => z i s) hne
    refine ⟨s, _, hs s, Real.log_le_log (hpos _) ?_⟩
    rw [le_div_iff₀ n]
    have := Finset.card_nsmul_le_sum Finset.univ (fun s => w fun i => z i s) _ h1
    rw [Finset.card_univ, Fintype.card_fin, nsmul_eq_mul, mul_comm] at this
    exact this
  · obtain ⟨s, -, h1⟩ := Finset.exists_max_image Finset.univ (fun s => w fun i => z i s) hne
    refine ⟨s, _, hs s, Real.log_le_log (div_pos (Finset.sum_pos (fun s _ => hpos _) hne) n) ?_⟩
    rw [div_le_iff₀ n]
    have := Finset.sum_le_card_nsmul Finset.univ (fun s => w fun i => z i s) _ h1
    rw [Finset.card_univ, Fintype.card_fin, nsmul_eq_mul, mul_comm] at this
    exact this

/-! ## A case meeting the hypotheses -/

/-- The model `crossed` with three samples, then two. -/
example (z₁ : Matrix (Fin 2) (Fin 3) ℝ) (z₂ : Matrix (Fin 2) (Fin 2) ℝ)
    (chol : Matrix (Fin 2) (Fin 2) ℝ → Matrix (Fin 2) (Fin 2) ℝ) :
    ∃ v₁ v₂ v, lfun chol ⟨expit, binomialDev⟩ crossed 2 dependent z₁ [1, 2, 0.5] = Except.ok v₁ ∧
      lfun chol ⟨expit, binomialDev⟩ crossed 2 dependent z₂ [1, 2, 0.5] = Except.ok v₂ ∧
      lfun chol ⟨expit, binomialDev⟩ crossed 2 dependent (pooled z₁ z₂) [1, 2, 0.5] = Except.ok v ∧
      Real.exp v = ((3 : ℕ) * Real.exp v₁ + (2 : ℕ) * Real.exp v₂) / ((3 : ℕ) + (2 : ℕ)) :=
  c113_pool (theta := [1, 2]) (beta := [0.5]) crossed_wf (by simp) rfl (by norm_num) (by norm_num) z₁ z₂

end Verif.IS
