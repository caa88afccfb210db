import Verif.Spec.IS
import Verif.Props.Factorization
import Verif.Proofs.GaussInt
import Mathlib.Data.List.OfFn

/-!
# Layout of the lists in `find_eta` and `find_log_integrand`
-/
namespace Verif.IS

open Verif.Split Matrix

variable {q n p r : ℕ}

theorem asNumeric_eq (A : Matrix (Fin r) (Fin n) ℝ) :
    asNumeric A = List.ofFn fun k : Fin (n * r) => A k.modNat k.divNat := by
  rw [List.ofFn_mul]
  unfold asNumeric
  rw [List.flatMap_def]
  congr 1
  rw [← List.ofFn_eq_map]
  congr 1
  funext j
  rw [← List.ofFn_eq_map]
  congr 1
  funext s
  have hr : 0 < r := s.pos
  congr 1
  · apply Fin.ext
    simp only [Fin.modNat]
    rw [Nat.add_comm, Nat.add_mul_mod_self_right, Nat.mod_eq_of_lt s.2]
  · apply Fin.ext
    simp only [Fin.divNat]
    rw [Nat.add_comm, Nat.add_mul_div_right _ _ hr, Nat.div_eq_of_lt s.2, Nat.zero_add]

theorem repEach_eq {α : Type} (x : Fin n → α) (r : ℕ) :
    repEach (List.ofFn x) r = List.ofFn fun k : Fin (n * r) => x k.divNat := by
  rw [List.ofFn_mul]
  unfold repEach
  rw [List.flatMap_def, List.map_ofFn]
  congr 2
  funext j
  rw [Function.comp, ← List.ofFn_const]
  congr 1
  funext s
  have hr : 0 < r := s.pos
  congr 1
  apply Fin.ext
  simp only [Fin.divNat]
  rw [Nat.add_comm, Nat.add_mul_div_right _ _ hr, Nat.div_eq_of_lt s.2, Nat.zero_add]

theorem zipWith_ofFn {α β γ : Type} {m : ℕ} (f : α → β → γ) (a : Fin m → α) (b : Fin m → β) :
    List.zipWith f (List.ofFn a) (List.ofFn b) = List.ofFn fun k => f (a k) (b k) := by
  apply List.ext_getElem
  · simp
  · intro i h1 h2
    simp

theorem rowSums_eq (g : Fin r → Fin n → ℝ) (s : Fin r) :
    rowSums (List.ofFn fun k : Fin (n * r) => g k.modNat k.divNat) r n s = ∑ j, g s j := by
  unfold rowSums
  refine Finset.sum_congr rfl fun j _ => ?_
  have hr : 0 < r := s.pos
  have hlt : (s : ℕ) + r * j < n * r := by
    have := j.2
    have := s.2
    nlinarith
  rw [List.getD_eq_getElem _ _ (by simpa using hlt), List.getElem_ofFn]
  congr 1
  · apply Fin.ext
    simp only [Fin.modNat]
    rw [Nat.add_mul_mod_self_left, Nat.mod_eq_of_lt s.2]
  · apply Fin.ext
    simp only [Fin.divNat]
    rw [Nat.add_mul_div_left _ _ hr, Nat.div_eq_of_lt s.2, Nat.zero_add]

theorem weightsOf_eq (M : ModFr q n p) : weightsOf M = List.ofFn (Split.Spec.weight M) := by
  unfold weightsOf Split.Spec.weight
  rcases M.weights with _ | w
  · exact (List.ofFn_const n 1).symm
  · rfl

theorem logDnorm_eq (x : ℝ) :
    logDnorm x = Real.log (ProbabilityTheory.gaussianPDFReal 0 1 x) := by
  unfold logDnorm ProbabilityTheory.gaussianPDFReal
  rw [Real.log_mul (by positivity) (Real.exp_pos _).ne', Real.log_exp, Real.log_inv]
  simp only [sub_zero, NNReal.coe_one, mul_one]
  ring

/-- `XBeta` is right: the list of its elements, or empty if there are no columns. -/
def GoodXBeta (XBeta : List ℝ) (xb : Fin n → ℝ) : Prop :=
  XBeta = List.ofFn xb ∨ XBeta = [] ∧ xb = 0

theorem findEta_eq {XBeta : List ℝ} {xb : Fin n → ℝ} (h : GoodXBeta XBeta xb)
    (L : Matrix (Fin q) (Fin n) ℝ) (u : Matrix (Fin q) (Fin r) ℝ) :
    findEta u XBeta L = List.ofFn fun k : Fin (n * r) =>
      xb k.divNat + ∑ i, u i k.modNat * L i k.divNat := by
  unfold findEta
  dsimp only
  rw [asNumeric_eq]
  simp only [Matrix.mul_apply, Matrix.transpose_apply]
  by_cases hl : XBeta.length > 0
  · rw [if_pos hl]
    rcases h with rfl | ⟨rfl, -⟩
    · rw [repEach_eq, zipWith_ofFn]
    · simp at hl
  · rw [if_neg hl]
    congr 1
    funext k
    rcases h with rfl | ⟨-, rfl⟩
    · rw [List.length_ofFn] at hl
      exact absurd k.divNat.pos hl
    · rw [Pi.zero_apply, zero_add]

theorem logIntegrand_eq {XBeta : List ℝ} {xb : Fin n → ℝ} (h : GoodXBeta XBeta xb) (fam : Fam)
    (M : ModFr q n p) (L : Matrix (Fin q) (Fin n) ℝ) (u : Matrix (Fin q) (Fin r) ℝ) (s : Fin r) :
    logIntegrand fam M XBeta L u s = -(1 / 2) * ∑ j, fam.devResid (M.resp j)
      (fam.linkinv (xb j + ∑ i, u i s * L i j)) (Split.Spec.weight M j) +
      ∑ i, Real.log (ProbabilityTheory.gaussianPDFReal 0 1 (u i s)) := by
  unfold logIntegrand
  dsimp only
  rw [findEta_eq h, List.map_ofFn, repEach_eq, weightsOf_eq, repEach_eq, zipWith_ofFn,
    zipWith_ofFn]
  have := rowSums_eq (n := n) (fun s j => fam.devResid (M.resp j)
    (fam.linkinv (xb j + ∑ i, u i s * L i j)) (Split.Spec.weight M j)) s
  simp only [Function.comp] at this ⊢
  rw [this]
  simp only [logDnorm_eq]
  ring

/-! ## Parameters -/

theorem colon_up (a m : ℕ) : colon (a + 1) (a + (m + 1)) = (List.range (m + 1)).map fun i => a + 1 + i := by
  unfold colon
  rw [if_pos (by omega)]
  congr 2
  omega

theorem index_append (l x t : List ℝ) (hx : x ≠ []) :
    index (l ++ x ++ t) (colon (l.length + 1) (l.length + x.length)) = x.map some := by
  obtain ⟨m, hm⟩ : ∃ m, x.length = m + 1 := ⟨x.length - 1, by
    have := List.length_pos_iff.2 hx; omega⟩
  rw [hm, colon_up]
  unfold index
  rw [List.filter_eq_self.2]
  · rw [List.map_map]
    apply List.ext_getElem
    · simp [hm]
    · intro i h1 h2
      simp only [List.length_map, List.length_range] at h1
      simp only [List.getElem_map, List.getElem_range, Function.comp]
      rw [show l.length + 1 + i - 1 = l.length + i by omega, List.append_assoc,
        List.getElem?_append_right (by omega), Nat.add_sub_cancel_left,
        List.getElem?_append_left (by omega), List.getElem?_eq_getElem (by omega)]
  · intro a ha
    obtain ⟨i, -, rfl⟩ := List.mem_map.1 ha
    simp only [ne_eq, decide_not, Bool.not_eq_eq_eq_not, Bool.not_true, decide_eq_false_iff_not]
    omega

theorem mapM_some {α : Type} (x : List α) : (x.map some).mapM id = some x := by
  induction x with
  | nil => rfl
  | cons a x ih => rw [List.map_cons, List.mapM_cons, ih]; rfl

theorem findXBeta_ok (M : ModFr q n p) (theta beta : List ℝ) (hb : beta.length = p) :
    ∃ XBeta, findXBeta (theta ++ beta) M theta.length = Except.ok XBeta ∧
      GoodXBeta XBeta fun j => ∑ k : Fin p, M.X j k * beta.getD k 0 := by
  unfold findXBeta
  by_cases hp : p = 0
  · subst hp
    rw [show beta = [] from List.length_eq_zero_iff.1 hb, List.append_nil, Nat.add_zero]
    refine ⟨[], ?_, Or.inr ⟨rfl, ?_⟩⟩
    · have hc : colon (theta.length + 1) theta.length = [theta.length + 1, theta.length] := by
        unfold colon
        rw [if_neg (by omega), show theta.length + 1 - theta.length + 1 = 2 by omega]
        simp [List.range_succ]
      show matprod M.X (index theta (colon (theta.length + 1) theta.length)) = _
      rw [hc]
      unfold matprod
      rw [if_neg, if_pos rfl]
      simp [index]
    · funext j
      simp
  · have := index_append theta beta [] (by rintro rfl; exact hp hb.symm)
    rw [List.append_nil, hb] at this
    rw [this]
    refine ⟨_, ?_, Or.inl rfl⟩
    unfold matprod
    rw [if_pos (by rw [List.length_map, hb]), mapM_some]

theorem lambdatTheta_some {M : ModFr q n p} {theta : List ℝ} (h : Split.Spec.WellFormed M theta.length)
    (i c : Fin q) : lambdatTheta (theta.map some) M i c =
      some (Split.Spec.lambdat M theta i c) := by
  rw [whole_lambdat h]
  unfold lambdatTheta
  rcases hl : lindAt M i c with _ | l
  · rfl
  · have hm := (List.of_mem_zip ((lindAt_some h).1 hl)).2
    obtain ⟨h1, h2⟩ := h.lind l hm
    have hlt : (l - 1).toNat < theta.length := by omega
    dsimp only
    rw [List.getElem?_map, List.getElem?_eq_getElem hlt, List.getD_eq_getElem _ _ hlt]
    rfl

theorem findLambdatThetaZt_ok {M : ModFr q n p} {theta : List ℝ} (beta : List ℝ)
    (h : Split.Spec.WellFormed M theta.length) (ht : theta ≠ []) :
    findLambdatThetaZt (theta ++ beta) M theta.length = Except.ok
      ((Matrix.of fun i c => Split.Spec.lambdat M theta i c) * M.Zt) := by
  unfold findLambdatThetaZt
  have hi := index_append [] theta beta ht
  rw [List.length_nil, Nat.zero_add, Nat.zero_add, List.nil_append] at hi
  dsimp only
  rw [hi, if_neg]
  · simp only [lambdatTheta_some h, Option.getD_some]
  · rintro ⟨i, c, hc⟩
    rw [lambdatTheta_some h] at hc
    cases hc

/-- The closure `log_integrand` is the specified log-integrand of each column. -/
theorem findLogIntegrand_ok (fam : Fam) {M : ModFr q n p} {theta beta : List ℝ}
    (h : Split.Spec.WellFormed M theta.length) (ht : theta ≠ []) (hb : beta.length = p) :
    ∃ f, findLogIntegrand fam (theta ++ beta) M theta.length = Except.ok f ∧
      ∀ r (u : Matrix (Fin q) (Fin r) ℝ) s,
        f r u s = Spec.logIntegrand fam M theta beta fun i => u i s := by
  obtain ⟨XBeta, h1, h2⟩ := findXBeta_ok M theta beta hb
  unfold findLogIntegrand
  rw [h1, res_ok_bind, findLambdatThetaZt_ok beta h ht, res_ok_bind]
  refine ⟨_, rfl, ?_⟩
  intro r u s
  rw [logIntegrand_eq h2]
  unfold Spec.logIntegrand Split.Spec.eta
  simp only [Matrix.mul_apply, Matrix.of_apply, mul_comm (u _ s)]

end Verif.IS
