import Verif.Proofs.SignIntegrated
import Verif.Proofs.Jacobi
import Verif.Proofs.SignNormal
import Verif.Model.SR

/-!
# The Gauss-Hermite rule is symmetric about 0
-/
namespace Verif.Sign

open Matrix Verif.Quad

variable {n : ℕ}

/-- An eigenvector of the Jacobi matrix is determined by its first component. -/
theorem jac_first {v : Fin (n + 1) → ℝ} {c : ℝ} (h : jac n *ᵥ v = c • v) (h0 : v 0 = 0) : v = 0 := by
  have key : ∀ m (hm : m < n + 1), ∀ i ≤ m, ∀ hi : i < n + 1, v ⟨i, hi⟩ = 0 := by
    intro m
    induction m with
    | zero =>
      intro _ i hi hi'
      have : i = 0 := by omega
      subst this
      exact h0
    | succ m ih =>
      intro hm i hi hi'
      rcases Nat.lt_or_ge i (m + 1) with hlt | hge
      · exact ih (by omega) i (by omega) hi'
      have : i = m + 1 := by omega
      subst this
      have hm' : m < n + 1 := by omega
      have hr := congrFun h ⟨m, hm'⟩
      rw [Pi.smul_apply, ih hm' m le_rfl hm', smul_zero, mulVec, dotProduct,
        Finset.sum_eq_single (⟨m + 1, hm⟩ : Fin (n + 1))] at hr
      · rw [jac_apply, jent] at hr
        have e1 : ¬ m = m + 1 + 1 := by omega
        have e2 : m = m + 1 - 1 := by omega
        simp only [e1, if_false, zero_add, ← e2, if_true, Nat.add_one_ne_zero] at hr
        rcases mul_eq_zero.mp hr with h1 | h1
        · rw [Real.sqrt_eq_zero'] at h1
          push_cast at h1
          have : (0 : ℝ) ≤ m := Nat.cast_nonneg m
          linarith
        · exact h1
      · intro j _ hj
        rcases Nat.lt_or_ge m j with h1 | h1
        · have hj' : (j : ℕ) ≠ m + 1 := fun e => hj (Fin.ext e)
          rw [jac_apply, jent]
          have e1 : ¬ m = (j : ℕ) + 1 := by omega
          have e2 : ¬ m = (j : ℕ) - 1 := by omega
          simp only [e1, e2, if_false, add_zero, zero_mul]
        · rw [ih hm' j h1 j.2, mul_zero]
      · intro hx
        exact absurd (Finset.mem_univ _) hx
  funext i
  exact key i i.2 i le_rfl i.2

/-- Alternating signs. -/
def alt (i : ℕ) : ℝ := (-1) ^ i

theorem alt_sign : IsSign alt := fun i => neg_one_pow_eq_or ℝ i

/-- The Jacobi matrix changes its sign with the signs of every other coordinate. -/
theorem jac_alt (v : Fin (n + 1) → ℝ) : jac n *ᵥ fv alt v = -fv alt (jac n *ᵥ v) := by
  funext i
  simp only [mulVec, dotProduct, Pi.neg_apply, fv, Finset.mul_sum, ← Finset.sum_neg_distrib]
  refine Finset.sum_congr rfl fun j _ => ?_
  rw [jac_apply, jent]
  by_cases h1 : (i : ℕ) = j + 1
  · rw [alt, alt, h1, pow_succ]
    ring
  · rw [if_neg h1]
    by_cases h2 : (i : ℕ) = j - 1
    · rw [if_pos h2]
      split
      · ring
      · have : (j : ℕ) = i + 1 := by omega
        rw [alt, alt, this, pow_succ]
        ring
    · rw [if_neg h2]
      ring

section

variable {values : Fin (n + 1) → ℝ} {vectors : Matrix (Fin (n + 1)) (Fin (n + 1)) ℝ}
  (h : IsEigen (hermiteJacobi (n + 1)) values vectors)
include h

/-- The column `i` of the eigenvectors. -/
theorem eigen_col (i : Fin (n + 1)) :
    jac n *ᵥ (fun r => vectors r i) = values i • fun r => vectors r i := by
  funext r
  have := congrFun (congrFun h.decomposition r) i
  rw [mul_diagonal] at this
  rw [Pi.smul_apply, smul_eq_mul, mul_comm]
  exact this

theorem col_dot (i j : Fin (n + 1)) :
    (fun r => vectors r i) ⬝ᵥ (fun r => vectors r j) = if i = j then 1 else 0 := by
  have := congrFun (congrFun h.orthogonal i) j
  rw [one_apply] at this
  exact this

theorem col_ne (i : Fin (n + 1)) : (fun r => vectors r i) ≠ 0 := by
  intro h0
  have := col_dot h i i
  rw [h0, zero_dotProduct, if_pos rfl] at this
  exact zero_ne_one this

/-- The nodes are distinct. -/
theorem nodes_injective : Function.Injective values := by
  intro i j hij
  by_contra hne
  have e : jac n *ᵥ (vectors 0 j • (fun r => vectors r i) - vectors 0 i • fun r => vectors r j) =
      values i • (vectors 0 j • (fun r => vectors r i) - vectors 0 i • fun r => vectors r j) := by
    rw [mulVec_sub, mulVec_smul, mulVec_smul, eigen_col h, eigen_col h, ← hij]
    module
  have h0 := jac_first e (by simp [mul_comm])
  have h1 := congrArg (fun v => (fun r => vectors r i) ⬝ᵥ v) h0
  simp only [dotProduct_sub, dotProduct_smul, col_dot h, if_true, if_neg hne, dotProduct_zero,
    smul_eq_mul, mul_one, mul_zero, sub_zero] at h1
  exact col_ne h j (jac_first (eigen_col h j) h1)

/-- An eigenvector with alternating signs, in terms of the eigenvectors. -/
theorem alt_coord (i j : Fin (n + 1)) (hne : values j ≠ -values i) :
    (fun r => vectors r j) ⬝ᵥ fv alt (fun r => vectors r i) = 0 := by
  have hs : ∀ u v : Fin (n + 1) → ℝ, (jac n *ᵥ u) ⬝ᵥ v = u ⬝ᵥ (jac n *ᵥ v) := by
    intro u v
    rw [dotProduct_mulVec, vecMul_transpose_symm]
  have h1 := hs (fun r => vectors r j) (fv alt fun r => vectors r i)
  rw [jac_alt, eigen_col h, eigen_col h, fv_smul, smul_dotProduct, dotProduct_neg, dotProduct_smul,
    smul_eq_mul, smul_eq_mul] at h1
  have : (values j + values i) * ((fun r => vectors r j) ⬝ᵥ fv alt fun r => vectors r i) = 0 := by
    linarith
  rcases mul_eq_zero.mp this with h2 | h2
  · exact absurd (by linarith) hne
  · exact h2
where
  vecMul_transpose_symm {u : Fin (n + 1) → ℝ} : u ᵥ* jac n = jac n *ᵥ u := by
    rw [← mulVec_transpose, jac, fromLower_symm]

theorem expand (v : Fin (n + 1) → ℝ) :
    v = ∑ j, ((fun r => vectors r j) ⬝ᵥ v) • fun r => vectors r j := by
  have hV : vectors * vectorsᵀ = 1 := mul_eq_one_comm.mp h.orthogonal
  have : v = vectors *ᵥ (vectorsᵀ *ᵥ v) := by rw [mulVec_mulVec, hV, one_mulVec]
  conv_lhs => rw [this]
  funext r
  rw [Finset.sum_apply]
  simp only [mulVec, dotProduct, Pi.smul_apply, smul_eq_mul, transpose_apply]
  exact Finset.sum_congr rfl fun j _ => mul_comm _ _

theorem node_mirror (i : Fin (n + 1)) : ∃ j, values j = -values i := by
  by_contra hno
  push Not at hno
  have := expand h (fv alt fun r => vectors r i)
  simp only [alt_coord h i _ (hno _), zero_smul, Finset.sum_const_zero] at this
  refine col_ne h i ?_
  have h2 := congrArg (fv alt) this
  rw [fv_fv alt_sign] at h2
  rw [h2]
  funext r
  exact mul_zero _

theorem mirror_weight {i j : Fin (n + 1)} (hj : values j = -values i) :
    vectors 0 j * vectors 0 j = vectors 0 i * vectors 0 i := by
  have hx := expand h (fv alt fun r => vectors r i)
  rw [Finset.sum_eq_single j] at hx
  · generalize hc : (fun r => vectors r j) ⬝ᵥ fv alt (fun r => vectors r i) = c at hx
    have h1 : c * c = 1 := by
      have := congrArg (fun v => v ⬝ᵥ v) hx
      simp only [fv_dot alt_sign, smul_dotProduct, dotProduct_smul, col_dot h, if_true,
        smul_eq_mul, mul_one] at this
      exact this.symm
    have h2 := congrFun hx 0
    have h3 : vectors 0 i = c * vectors 0 j := by simpa [fv, alt] using h2
    rw [h3]
    linear_combination (-(vectors 0 j * vectors 0 j)) * h1
  · intro k _ hk
    rw [alt_coord h i k fun e => hk (nodes_injective h (e.trans hj.symm)), zero_smul]
  · intro hx
    exact absurd (Finset.mem_univ _) hx

/-- The rule made of the eigenvalues and eigenvectors of the Jacobi matrix is symmetric. -/
theorem ofEigen_sym : SymRule (ofEigen values vectors) := by
  choose π hπ using node_mirror h
  have hinv : ∀ i, π (π i) = i := fun i => nodes_injective h (by rw [hπ, hπ, neg_neg])
  refine ⟨⟨π, π, hinv, hinv⟩, fun i => ⟨hπ i, ?_⟩⟩
  show sqrtPi * vectors 0 (π i) * vectors 0 (π i) = sqrtPi * vectors 0 i * vectors 0 i
  rw [mul_assoc, mul_assoc, mirror_weight h (hπ i)]

end

/-- A rule given by lists. -/
theorem ruleOf_sym {k : ℕ} {r : Rule k} (h : SymRule r) :
    SymRule (SR.ruleOf ⟨List.ofFn r.nodes, List.ofFn r.weights⟩) := by
  obtain ⟨π, hπ⟩ := h
  have hl : (List.ofFn r.nodes).length = k := List.length_ofFn
  refine ⟨(finCongr hl).trans (π.trans (finCongr hl.symm)), fun i => ?_⟩
  have hn : ∀ i : Fin (List.ofFn r.nodes).length, (SR.ruleOf ⟨List.ofFn r.nodes,
      List.ofFn r.weights⟩).nodes i = r.nodes (i.cast hl) := fun i => by
    simp only [SR.ruleOf, List.get_ofFn]
  have hw : ∀ i : Fin (List.ofFn r.nodes).length, (SR.ruleOf ⟨List.ofFn r.nodes,
      List.ofFn r.weights⟩).weights i = r.weights (i.cast hl) := fun i => by
    have : (i : ℕ) < (List.ofFn r.weights).length := by
      have h1 := i.2
      have h2 : (List.ofFn r.weights).length = k := List.length_ofFn
      omega
    show (List.ofFn r.weights).getD i 0 = _
    rw [List.getD_eq_getElem _ _ this, List.getElem_ofFn]
    rfl
  rw [hn, hn, hw, hw]
  exact hπ (i.cast hl)

end Verif.Sign
